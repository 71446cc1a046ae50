import Verif.Proof.Whole
import Verif.Proof.SamplerExample
import Verif.Props.SampleText
import Verif.Props.LineParams

/-!
# C146: from the first draw to the posterior sample

The sampler with the model's own draws and moves, over any number of rounds, tasks, levels, interruptions and resumptions,
up to the text of the posterior sample file.
-/

namespace Mica

variable {n : ℕ}

/-- The facts below in one induction. -/
theorem whole_all {P : Perturb n} {D Q : (Fin n → ℝ) → Prop} (hP : MoveKeeps P Q) (hD : ∀ x, D x → Q x)
    {L : (Fin n → ℝ) → ℝ} (hL : ∀ x, -DBL_MAX ≤ L x) {o : SOpts} (ho : GoodOpts o) (h32 : o.maxNumLevels < 2 ^ 32)
    {s : Sampler n} (h : WholeRun P D L o s) :
    Sessions L o s ∧ (∀ ps ∈ s.tasks, ∀ p ∈ ps, Q p.params) ∧
      ∀ p ∈ s.saved, Q p.params ∧ LikelihoodCurrent L p := by
  induction h with
  | start o tie draws hd hx =>
    refine ⟨.start o tie draws hd, ?_, by simp [initSampler]⟩
    intro ps hps p hp
    obtain ⟨l, hl, rfl⟩ := List.mem_map.1 hps
    obtain ⟨x, hx', rfl⟩ := List.mem_map.1 hp
    exact hD _ (hx l hl x hx')
  | @round o a b i ha hv hr ih =>
    obtain ⟨h1, h2, h3⟩ := ih ho h32
    obtain ⟨j, hj, hup, hk⟩ := roundP_up hP (L := L) hv h2
    have hb : Sessions L o b := .round j h1 hj (Res.upTo_ok hup hr)
    obtain ⟨g1, g2⟩ := hk b hr
    refine ⟨hb, g1, fun p hp => ?_⟩
    rcases g2 p hp with e | ⟨ps, hps, hp'⟩
    · exact h3 p e
    · exact ⟨g1 ps hps p hp', ((sessions_inv hL ho h32 hb).inv.part ps hps p hp').2⟩
  | @resume o a b c m m' file ha hc hf hr iha ihc =>
    have ho' : GoodOpts o := ⟨ho.np, ho.nt, ho.nli, ho.chk, ho.comp⟩
    obtain ⟨h1, h2, h3⟩ := iha ho' h32
    obtain ⟨_, _, c3⟩ := ihc ⟨ho.np, ho.nt, ho.nli, ho.chk, ho.comp⟩ h32
    have h32' : o.maxNumLevels < 2 ^ 32 := h32
    have key := (sessions_inv hL ho' h32' h1).resume h32' m file (readRestart_saves hr)
    refine ⟨.resume m file h1 hr, ?_, ?_⟩
    · rw [hr] at key
      cases key
      exact h2
    · rw [hr] at key
      cases key
      exact fun p hp => c3 p (hf p hp)

theorem conPerturb_keeps (c : ConCfg n) : MoveKeeps (conPerturb c) fun x => InPrior c x ∧ FixedHeld c x where
  keep := by
    intro s x q hx h
    unfold conPerturb at h
    obtain ⟨y, hy, h⟩ := Res.bind_eq_ok.1 h
    cases h
    obtain ⟨w, hw, h1, h2, h3⟩ := perturbCon_spec c s x y hy
    refine ⟨fun i hi => ?_, fun i v hv => ?_⟩ <;> dsimp only
    · by_cases e : i = w
      · subst e; exact ⟨h1, h2⟩
      · rw [h3 i e]; exact hx.1 i hi
    · have e : i ≠ w := by rintro rfl; rw [hw] at hv; cases hv
      rw [h3 i e]; exact hx.2 i v hv
  safe := by
    intro s x _ h
    unfold conPerturb perturbCon at h
    rcases hp : pickFree c s.cands with w | _ | _ | _
    · rw [hp] at h
      simp only [Res.ok_bind] at h
      generalize x w + s.h * conWidth c s w = z at h
      rcases lt_trichotomy (c.lo w) (c.hi w) with hlt | heq | hgt
      · obtain ⟨y, hy, _⟩ := C01_wrap_range z _ _ hlt
        rw [hy] at h; cases h
      · rw [(C01_wrap_degenerate z _ _).1 heq] at h; cases h
      · rw [(C01_wrap_degenerate z _ _).2 hgt] at h; cases h
    · rw [hp] at h; cases h
    · have : ∀ l : List (Fin n), pickFree c l ≠ .ub := by
        intro l
        induction l with
        | nil => exact fun e => by cases e
        | cons a l ih =>
          simp only [pickFree]
          split
          · exact ih
          · exact fun e => by cases e
      exact this _ hp
    · rw [hp] at h; cases h

theorem conDrawn_inside (c : ConCfg n) (hr : ∀ i, c.lo i ≤ c.hi i) (x : Fin n → ℝ) (h : ConDrawn c x) :
    InPrior c x ∧ FixedHeld c x := by
  obtain ⟨u, hu, rfl⟩ := h
  refine ⟨fun i hi => ?_, fun i v hv => ?_⟩
  · simp only [fromPriorCon, hi]
    have h1 := sub_nonneg.2 (hr i)
    have h2 := mul_nonneg (hu i).1 h1
    have h3 := mul_le_mul_of_nonneg_right (hu i).2 h1
    constructor <;> linarith
  · simp only [fromPriorCon, hv]

theorem linePerturb_keeps (c : LineCfg) (hr : c.RangesOk) (hs : c.SharedOk)
    (hg : c.gap → ∀ i < c.nl.length, 0 < c.nl.getD i 0) :
    MoveKeeps (linePerturb c) fun x => c.Inv (extendVec x) where
  keep := by
    intro s x q hx h
    unfold linePerturb at h
    obtain ⟨y, hy, h⟩ := Res.bind_eq_ok.1 h
    cases h
    refine c.inv_congr hs (fun i hi => ?_) (c.perturb_inv hx hr hs s hy)
    simp only [extendVec, dif_pos hi]
  safe := by
    intro s x hx h
    unfold linePerturb at h
    rcases c.perturb_total hx hr hs hg s with e | ⟨r, e⟩
    · rw [e] at h; cases h
    · rw [e] at h; cases h

theorem lineDrawn_inside (c : LineCfg) (hr : c.RangesOk) (hs : c.SharedOk) (hp : c.posivity = false)
    (x : Fin c.numParams → ℝ) (h : LineDrawn c x) : c.Inv (extendVec x) := by
  obtain ⟨d, mem, pm, hd, hpm, hx⟩ := h
  obtain ⟨pm', h', hi⟩ := c.fromPrior_inv d mem hd hr hs hp
  rw [hpm] at h'
  cases h'
  refine c.inv_congr hs (fun i hi' => ?_) hi
  simp only [extendVec, dif_pos hi', hx]

/-- **C146.** Every state of a run of the real program — with the model's own draws and moves, interrupted and resumed
in any way — is a state of the sampler whose proposals are arbitrary: whatever is proved of the latter for all proposals
(thresholds, levels, counters, restarts) holds of the program. -/
theorem C146_con_refines (c : ConCfg n) (hr : ∀ i, c.lo i ≤ c.hi i) {L : (Fin n → ℝ) → ℝ} (hL : ∀ x, -DBL_MAX ≤ L x)
    {o : SOpts} (ho : GoodOpts o) (h32 : o.maxNumLevels < 2 ^ 32) {s : Sampler n}
    (h : WholeRun (conPerturb c) (ConDrawn c) L o s) : Sessions L o s :=
  (whole_all (conPerturb_keeps c) (conDrawn_inside c hr) hL ho h32 h).1

/-- **C146.** The same for the line models. -/
theorem C146_line_refines (c : LineCfg) (hr : c.RangesOk) (hs : c.SharedOk) (hp : c.posivity = false)
    (hg : c.gap → ∀ i < c.nl.length, 0 < c.nl.getD i 0) {L : (Fin c.numParams → ℝ) → ℝ} (hL : ∀ x, -DBL_MAX ≤ L x)
    {o : SOpts} (ho : GoodOpts o) (h32 : o.maxNumLevels < 2 ^ 32) {s : Sampler c.numParams}
    (h : WholeRun (linePerturb c) (LineDrawn c) L o s) : Sessions L o s :=
  (whole_all (linePerturb_keeps c hr hs hg) (lineDrawn_inside c hr hs hp) hL ho h32 h).1

/-- **C146.** Continuum model: at every moment every particle of every task, and every saved sample, has its free
parameters inside the prior, its fixed parameters at their values, and the likelihood of its own parameters. -/
theorem C146_con (c : ConCfg n) (hr : ∀ i, c.lo i ≤ c.hi i) {L : (Fin n → ℝ) → ℝ} (hL : ∀ x, -DBL_MAX ≤ L x)
    {o : SOpts} (ho : GoodOpts o) (h32 : o.maxNumLevels < 2 ^ 32) {s : Sampler n}
    (h : WholeRun (conPerturb c) (ConDrawn c) L o s) (p : Particle n) (hp : (∃ ps ∈ s.tasks, p ∈ ps) ∨ p ∈ s.saved) :
    (∀ i, c.fix i = none → c.lo i ≤ p.params i ∧ p.params i ≤ c.hi i) ∧
      (∀ i v, c.fix i = some v → p.params i = v) ∧ p.logl.value = L p.params := by
  obtain ⟨h1, h2, h3⟩ := whole_all (conPerturb_keeps c) (conDrawn_inside c hr) hL ho h32 h
  rcases hp with ⟨ps, hps, hp⟩ | hp
  · exact ⟨(h2 ps hps p hp).1, (h2 ps hps p hp).2, ((sessions_inv hL ho h32 h1).inv.part ps hps p hp).2⟩
  · exact ⟨(h3 p hp).1.1, (h3 p hp).1.2, (h3 p hp).2⟩

/-- **C146.** Line models: at every moment every particle of every task, and every saved sample, has its free parameters
inside the prior, its fixed parameters at their values (copied ones apart), shared lags and widths equal to those they are
copied from, the lags of each line in order and inside the lag range if the prior orders them, and the likelihood of its
own parameters. -/
theorem C146_line (c : LineCfg) (hr : c.RangesOk) (hs : c.SharedOk) (hp : c.posivity = false)
    (hg : c.gap → ∀ i < c.nl.length, 0 < c.nl.getD i 0) {L : (Fin c.numParams → ℝ) → ℝ} (hL : ∀ x, -DBL_MAX ≤ L x)
    {o : SOpts} (ho : GoodOpts o) (h32 : o.maxNumLevels < 2 ^ 32) {s : Sampler c.numParams}
    (h : WholeRun (linePerturb c) (LineDrawn c) L o s) (p : Particle c.numParams)
    (hp' : (∃ ps ∈ s.tasks, p ∈ ps) ∨ p ∈ s.saved) :
    (∀ i : Fin c.numParams, c.fix i = none → (c.rng i).1 ≤ p.params i ∧ p.params i ≤ (c.rng i).2) ∧
    (∀ (i : Fin c.numParams) (v : ℝ), c.fix i = some v → (c.uniTf = 2 → ∀ q ∈ c.shared, q.1 ≠ i) → p.params i = v) ∧
    (∀ i j : Fin c.numParams, c.uniTf = 2 → (i.1, j.1) ∈ c.shared → p.params i = p.params j) ∧
    (c.ordered → ∀ b < c.nblocks, ∀ i j : Fin c.numParams, ∀ k, k + 1 < c.ng → i.1 = c.cen b k → j.1 = c.cen b (k + 1) →
      c.lagRange.1 ≤ p.params i ∧ p.params i ≤ p.params j ∧ p.params j ≤ c.lagRange.2) ∧
    p.logl.value = L p.params := by
  obtain ⟨h1, h2, h3⟩ := whole_all (linePerturb_keeps c hr hs hg) (lineDrawn_inside c hr hs hp) hL ho h32 h
  have key : c.Inv (extendVec p.params) ∧ LikelihoodCurrent L p := by
    rcases hp' with ⟨ps, hps, hp⟩ | hp
    · exact ⟨h2 ps hps p hp, ((sessions_inv hL ho h32 h1).inv.part ps hps p hp).2⟩
    · exact h3 p hp
  obtain ⟨hi, hl⟩ := key
  have e : ∀ i : Fin c.numParams, extendVec p.params i.1 = p.params i := fun i => by simp [extendVec, i.2]
  refine ⟨fun i hn => ?_, fun i v hv hns => ?_, fun i j hu hij => ?_, fun hord b hb i j k hk hi' hj' => ?_, hl⟩
  · rw [← e]; exact hi.range i i.2 hn
  · rw [← e]; exact hi.fixed i v i.2 hv hns
  · rw [← e, ← e]; exact hi.copy hu _ hij
  · obtain ⟨g1, g2⟩ := hi.order hord b hb
    rw [← e, ← e, hi', hj']
    exact ⟨(g1 k (by omega)).1, g2 k hk, (g1 (k + 1) hk).2⟩

/-- **C146.** No undefined behaviour in any round of a run of the continuum model. -/
theorem C146_con_safe (c : ConCfg n) (hr : ∀ i, c.lo i ≤ c.hi i) {L : (Fin n → ℝ) → ℝ} (hL : ∀ x, -DBL_MAX ≤ L x)
    {o : SOpts} (ho : GoodOpts o) (h32 : o.maxNumLevels < 2 ^ 32) {s : Sampler n}
    (h : WholeRun (conPerturb c) (ConDrawn c) L o s) (i : RoundInP n) (hv : ValidRoundP o i) :
    roundP (conPerturb c) o L i s ≠ .ub := by
  obtain ⟨h1, h2, _⟩ := whole_all (conPerturb_keeps c) (conDrawn_inside c hr) hL ho h32 h
  obtain ⟨j, hj, hup, _⟩ := roundP_up (conPerturb_keeps c) (L := L) hv h2
  refine Res.upTo_safe hup fun e => ?_
  have := (sessions_inv hL ho h32 h1).safe ho hj
  rw [e] at this
  exact this

/-- **C146.** No undefined behaviour in any round of a run of a line model. -/
theorem C146_line_safe (c : LineCfg) (hr : c.RangesOk) (hs : c.SharedOk) (hp : c.posivity = false)
    (hg : c.gap → ∀ i < c.nl.length, 0 < c.nl.getD i 0) {L : (Fin c.numParams → ℝ) → ℝ} (hL : ∀ x, -DBL_MAX ≤ L x)
    {o : SOpts} (ho : GoodOpts o) (h32 : o.maxNumLevels < 2 ^ 32) {s : Sampler c.numParams}
    (h : WholeRun (linePerturb c) (LineDrawn c) L o s) (i : RoundInP c.numParams) (hv : ValidRoundP o i) :
    roundP (linePerturb c) o L i s ≠ .ub := by
  obtain ⟨h1, h2, _⟩ := whole_all (linePerturb_keeps c hr hs hg) (lineDrawn_inside c hr hs hp) hL ho h32 h
  obtain ⟨j, hj, hup, _⟩ := roundP_up (linePerturb_keeps c hr hs hg) (L := L) hv h2
  refine Res.upTo_safe hup fun e => ?_
  have := (sessions_inv hL ho h32 h1).safe ho hj
  rw [e] at this
  exact this

/-- **C146.** Continuum model, up to the text: the sample files hold the rows of saved particles, `postprocess` makes the
posterior sample file of them, and every row that is read from it is, to half a unit of the sixth decimal, a vector inside
the prior, listed with the seven digits of the likelihood of that vector over the temperature.  If the ends of a range have
six decimals the row itself is inside. -/
theorem C146_posterior (c : ConCfg n) (hn : 0 < n) (hr : ∀ i, c.lo i ≤ c.hi i) {L : (Fin n → ℝ) → ℝ}
    (hL : ∀ x, -DBL_MAX ≤ L x) {o : SOpts} (ho : GoodOpts o) (h32 : o.maxNumLevels < 2 ^ 32) {s : Sampler n}
    (h : WholeRun (conPerturb c) (ConDrawn c) L o s) (T : ℝ) (ls : List LevelRow) (hl : ∀ l ∈ ls, l.Fits)
    (ss : List SavedRow) (hss : ∀ r ∈ ss, r.Fits ∧ ∃ id, ∃ p ∈ s.saved, r = savedRow id p) (nl ns : ℕ)
    (draws : List (ℕ × ℝ)) (hu : ∀ d ∈ draws, 0 ≤ d.2 ∧ d.2 < 1) (out : PostOut (List ℝ))
    (hout : postprocessText T n (stateText nl ns) (levelsText ls) (infoText ss) (sampleText (ss.map (·.par))) draws =
      .ok out) :
    ∃ rows, readPostText n (postText out.post) = .ok rows ∧
      ∀ (k : ℕ) (row : List ℝ), rows[k]? = some row → ∃ x : Fin n → ℝ, row.length = n ∧
        (∀ i, c.fix i = none → c.lo i ≤ x i ∧ x i ≤ c.hi i) ∧ (∀ i v, c.fix i = some v → x i = v) ∧
        (∀ (i : Fin n) (y : ℝ), row[i.1]? = some y → |y - x i| ≤ 1 / 2 / 10 ^ 6) ∧
        out.postInfo[k]? = some (sciVal 6 (L x) / T) ∧
        (∀ (i : Fin n) (y : ℝ), row[i.1]? = some y → c.fix i = none → (∃ a : ℤ, c.lo i = a / 10 ^ 6) →
          (∃ b : ℤ, c.hi i = b / 10 ^ 6) → c.lo i ≤ y ∧ y ≤ c.hi i) := by
  have hs : ∀ r ∈ ss, r.Fits ∧ r.par.length = n := by
    intro r hr'
    obtain ⟨h1, id, p, _, rfl⟩ := hss r hr'
    exact ⟨h1, by simp [savedRow]⟩
  obtain ⟨rows, h1, h2, h3⟩ := C103_use T n hn ls hl ss hs nl ns draws hu out hout
  refine ⟨rows, h1, fun k row hrow => ?_⟩
  obtain ⟨w, r, _, hw, hlen, hinfo, hnear, _, hin⟩ := h3 k row hrow
  obtain ⟨_, id, p, hp, rfl⟩ := hss r (List.mem_of_getElem? hw)
  obtain ⟨q1, q2, q3⟩ := C146_con c hr hL ho h32 h p (.inr hp)
  have hpar : ∀ i : Fin n, (savedRow id p).par[i.1]? = some (p.params i) := by
    intro i
    simp [savedRow]
  refine ⟨p.params, hlen, q1, q2, fun i y hy => ?_, ?_, fun i y hy hf ha hb => ?_⟩
  · obtain ⟨hi, e⟩ := List.getElem?_eq_some_iff.1 hy
    obtain ⟨hi', e'⟩ := List.getElem?_eq_some_iff.1 (hpar i)
    have := hnear.get hi hi'
    simp only [List.get_eq_getElem] at this
    rw [e, e'] at this
    exact this
  · rw [hinfo, ← q3]; rfl
  · exact hin i (p.params i) y (c.lo i) (c.hi i) (hpar i) hy (q1 i hf).1 (q1 i hf).2 ha hb

/-- **C146.** Line models, up to the text: every row read from the posterior sample file is, to half a unit of the sixth
decimal, a vector inside the prior, listed with the seven digits of the likelihood of that vector over the temperature; if
the prior orders the lags, the lags in the row are in order. -/
theorem C146_posterior_line (c : LineCfg) (hn : 0 < c.numParams) (hr : c.RangesOk) (hs : c.SharedOk)
    (hp : c.posivity = false) (hg : c.gap → ∀ i < c.nl.length, 0 < c.nl.getD i 0) {L : (Fin c.numParams → ℝ) → ℝ}
    (hL : ∀ x, -DBL_MAX ≤ L x) {o : SOpts} (ho : GoodOpts o) (h32 : o.maxNumLevels < 2 ^ 32) {s : Sampler c.numParams}
    (h : WholeRun (linePerturb c) (LineDrawn c) L o s) (T : ℝ) (ls : List LevelRow) (hl : ∀ l ∈ ls, l.Fits)
    (ss : List SavedRow) (hss : ∀ r ∈ ss, r.Fits ∧ ∃ id, ∃ p ∈ s.saved, r = savedRow id p) (nl ns : ℕ)
    (draws : List (ℕ × ℝ)) (hu : ∀ d ∈ draws, 0 ≤ d.2 ∧ d.2 < 1) (out : PostOut (List ℝ))
    (hout : postprocessText T c.numParams (stateText nl ns) (levelsText ls) (infoText ss) (sampleText (ss.map (·.par)))
      draws = .ok out) :
    ∃ rows, readPostText c.numParams (postText out.post) = .ok rows ∧
      ∀ (k : ℕ) (row : List ℝ), rows[k]? = some row → ∃ x : Fin c.numParams → ℝ, row.length = c.numParams ∧
        (∀ i : Fin c.numParams, c.fix i = none → (c.rng i).1 ≤ x i ∧ x i ≤ (c.rng i).2) ∧
        (∀ (i : Fin c.numParams) (y : ℝ), row[i.1]? = some y → |y - x i| ≤ 1 / 2 / 10 ^ 6) ∧
        out.postInfo[k]? = some (sciVal 6 (L x) / T) ∧
        (∀ (i : Fin c.numParams) (y : ℝ), row[i.1]? = some y → c.fix i = none → (∃ a : ℤ, (c.rng i).1 = a / 10 ^ 6) →
          (∃ b : ℤ, (c.rng i).2 = b / 10 ^ 6) → (c.rng i).1 ≤ y ∧ y ≤ (c.rng i).2) ∧
        (c.ordered → ∀ b < c.nblocks, ∀ m, m + 1 < c.ng → ∀ y z : ℝ, row[c.cen b m]? = some y →
          row[c.cen b (m + 1)]? = some z → y ≤ z) := by
  have hs' : ∀ r ∈ ss, r.Fits ∧ r.par.length = c.numParams := by
    intro r hr'
    obtain ⟨h1, id, p, _, rfl⟩ := hss r hr'
    exact ⟨h1, by simp [savedRow]⟩
  obtain ⟨rows, h1, h2, h3⟩ := C103_use T c.numParams hn ls hl ss hs' nl ns draws hu out hout
  refine ⟨rows, h1, fun k row hrow => ?_⟩
  obtain ⟨w, r, _, hw, hlen, hinfo, hnear, hord, hin⟩ := h3 k row hrow
  obtain ⟨_, id, p, hp', rfl⟩ := hss r (List.mem_of_getElem? hw)
  obtain ⟨q1, _, _, q4, q5⟩ := C146_line c hr hs hp hg hL ho h32 h p (.inr hp')
  have hpar : ∀ i : Fin c.numParams, (savedRow id p).par[i.1]? = some (p.params i) := by
    intro i
    simp [savedRow]
  refine ⟨p.params, hlen, q1, fun i y hy => ?_, ?_, fun i y hy hf ha hb => ?_, fun ho' b hb m hm y z hy hz => ?_⟩
  · obtain ⟨hi, e⟩ := List.getElem?_eq_some_iff.1 hy
    obtain ⟨hi', e'⟩ := List.getElem?_eq_some_iff.1 (hpar i)
    have := hnear.get hi hi'
    simp only [List.get_eq_getElem] at this
    rw [e, e'] at this
    exact this
  · rw [hinfo, ← q5]; rfl
  · exact hin i (p.params i) y (c.rng i).1 (c.rng i).2 (hpar i) hy (q1 i hf).1 (q1 i hf).2 ha hb
  · have a1 := c.cen_lt hb (k := m) (by omega)
    have a2 := c.cen_lt hb hm
    have := q4 ho' b hb ⟨_, a1⟩ ⟨_, a2⟩ m hm rfl rfl
    exact hord _ _ _ _ _ _ (hpar ⟨_, a1⟩) (hpar ⟨_, a2⟩) hy hz this.2.1

/-! ## A run -/

/-- One free parameter between 0 and 10. -/
noncomputable def wholeCfg : ConCfg 1 := ⟨fun _ => 0, fun _ => 10, fun _ => none⟩

/-- One round: a step of two tenths of the range. -/
noncomputable def wholeRound : RoundInP 1 where
  steps := [[⟨0, 0, [0], 0.2, 0, 0, ⟨1, 0, 0⟩⟩]]
  kill := ⟨[0], []⟩
  saveTask := 0
  saveParticle := 0

theorem whole_same : roundP (conPerturb wholeCfg) exOpts exL wholeRound (initSampler exOpts exL 0 exDraws) =
    round exOpts exL exRound (initSampler exOpts exL 0 exDraws) := by
  have hw : dnestWrap 3 0 10 = .ok 3 := C01_wrap_id 3 0 10 (by norm_num) (by norm_num)
  have hP : ∀ lim : ℤ → Fin 1 → ℝ × ℝ, conPerturb wholeCfg ⟨[0], 0.2, 0, 1, lim⟩ (fun _ => 1) = .ok (fun _ => 3, 0) := by
    intro lim
    have e : ((1 : ℝ) + 0.2 * conWidth wholeCfg ⟨[0], 0.2, 0, 1, lim⟩ 0) = 3 := by
      simp [conWidth, wholeCfg]; norm_num
    simp only [conPerturb, perturbCon, pickFree, wholeCfg, Option.isSome_none, Bool.false_eq_true, if_false, Res.ok_bind]
    simp only [wholeCfg] at e
    rw [e, hw]
    simp only [Res.ok_bind, Res.pure_eq]
    congr 2
    funext i
    simp [Subsingleton.elim i 0]
  have h0 : (0 : ℝ) ≤ 0.5 := by norm_num
  have hs : mcmcRunP (conPerturb wholeCfg) exOpts exL 2 [⟨0, 0, [0], 0.2, 0, 0, ⟨1, 0, 0⟩⟩]
      ⟨[⟨fun _ => 1, ⟨exL fun _ => 1, 0⟩, 0⟩], [⟨⟨-DBL_MAX, 0⟩, 0, 0, 0, 0, 0⟩],
        List.replicate exOpts.levelCap fun _ => (DBL_MAX, -DBL_MAX), []⟩ =
      mcmcRun exOpts exL 2 [⟨0, 0, ⟨fun _ => 3, 0, 0, 0⟩, ⟨1, 0, 0⟩⟩]
      ⟨[⟨fun _ => 1, ⟨exL fun _ => 1, 0⟩, 0⟩], [⟨⟨-DBL_MAX, 0⟩, 0, 0, 0, 0, 0⟩],
        List.replicate exOpts.levelCap fun _ => (DBL_MAX, -DBL_MAX), []⟩ := by
    simp only [mcmcRunP, mcmcRun, mcmcStepP, mcmcStep, samplerMove, mcmcMove, if_pos h0, perturbUpdate, Res.get,
      List.getElem?_cons_zero, Res.ok_bind, List.length_singleton]
    have := hP (limitAt (List.replicate exOpts.levelCap fun _ => (DBL_MAX, -DBL_MAX)))
    push_cast
    rw [this]
    rfl
  simp only [roundP, round, initSampler, exDraws, List.map_cons, List.map_nil, initParticle, wholeRound, exRound,
    runTasksP, runTasks, exOpts_maxNumLevels]
  rw [hs]
  rfl

/-- A run of the continuum model: a draw at 1, one step to 3, one level created, one sample saved; resumed with five
samples asked for. -/
theorem whole_run : ∃ s : Sampler 1, WholeRun (conPerturb wholeCfg) (ConDrawn wholeCfg) exL { exOpts with maxNumSaves := 5 } s ∧
    s.saved = [⟨fun _ => 3, ⟨3, 0⟩, 0⟩] ∧ s.levels.length = 2 := by
  obtain ⟨s, hs, h1, h2⟩ := ex_run
  have hf : ¬ finished exOpts (initSampler exOpts exL 0 exDraws) := by simp [finished, initSampler]
  simp only [run, if_neg hf] at hs
  obtain ⟨s', hs', e⟩ := Res.bind_eq_ok.1 hs
  cases e
  have hd : ∀ l ∈ exDraws, ∀ x ∈ l, ConDrawn wholeCfg x.1 := by
    intro l hl x hx
    simp only [exDraws, List.mem_singleton] at hl
    subst hl
    rw [List.mem_singleton] at hx
    subst hx
    refine ⟨fun _ => 0.1, fun _ => by norm_num, ?_⟩
    funext i
    simp [fromPriorCon, wholeCfg]; norm_num
  have hw : WholeRun (conPerturb wholeCfg) (ConDrawn wholeCfg) exL exOpts s :=
    .round wholeRound (.start exOpts 0 exDraws exDraws_valid hd)
      ⟨rfl, by simp [wholeRound], by simp [wholeRound], rfl, by simp [wholeRound], by simp [wholeRound],
        by simp [wholeRound]⟩ (whole_same.trans hs')
  have hg : GoodOpts exOpts := by constructor <;> simp
  have hse := C146_con_refines wholeCfg (fun _ => by norm_num [wholeCfg]) exL_bound hg (by simp) hw
  have hsv : s.countSaves ≤ 3 := by
    have := reachable_saves (o := exOpts) (L := exL) (by simp) (s := s)
      ⟨0, exDraws, [exRound], exDraws_valid, by simpa using exRound_valid, by
        simp only [run, if_neg hf]; rw [hs']; rfl⟩
    simpa using this
  have key := (sessions_inv exL_bound hg (by simp) hse).resume (by simp) 5 s.saved
    (le_trans (Nat.mod_le _ _) (by omega))
  refine ⟨_, .resume 5 3 s.saved hw hw (fun r hr => hr) key, h2, ?_⟩
  have := congrArg List.length h1
  simpa using this

example : ∃ s : Sampler 1, WholeRun (conPerturb wholeCfg) (ConDrawn wholeCfg) exL { exOpts with maxNumSaves := 5 } s ∧
    s.saved ≠ [] ∧ GoodOpts { exOpts with maxNumSaves := 5 } ∧ (∀ i, wholeCfg.lo i ≤ wholeCfg.hi i) := by
  obtain ⟨s, h, h2, _⟩ := whole_run
  exact ⟨s, h, by rw [h2]; simp, by constructor <;> simp, fun _ => by norm_num [wholeCfg]⟩

/-- A start of a line model with ordered lags: the hypotheses on the configuration are met. -/
example : let c := lineCfgEx 0 0 [1] false
    c.RangesOk ∧ c.SharedOk ∧ c.posivity = false ∧ (c.gap → ∀ i < c.nl.length, 0 < c.nl.getD i 0) ∧ 0 < c.numParams ∧
    ∃ s, WholeRun (linePerturb c) (LineDrawn c) (fun _ => 0) exOpts s ∧ ∃ ps ∈ s.tasks, ps ≠ [] := by
  intro c
  have hs : c.SharedOk := by
    intro h; simp [c, lineCfgEx] at h
  have hg : c.gap = true → ∀ i < c.nl.length, 0 < c.nl.getD i 0 := by
    intro _ i hi; simp [c, lineCfgEx] at hi; simp [c, lineCfgEx, hi]
  refine ⟨lineCfgEx_ranges _ _ _ _, hs, rfl, hg, ?_, ?_⟩
  · simp [c, LineCfg.numParams, LineCfg.numVar, LineCfg.numLine, LineCfg.blk, lineCfgEx]
  · have hd : ∀ i, 0 ≤ (lineDrawEx 0 0).u i ∧ (lineDrawEx 0 0).u i ≤ 1 := fun i => by simp [lineDrawEx]
    obtain ⟨p, h0, hi⟩ := c.fromPrior_inv (lineDrawEx 0 0) (fun _ => 0) hd (lineCfgEx_ranges _ _ _ _) hs rfl
    refine ⟨_, .start exOpts 0 [[(fun i => p i, 0)]] ⟨rfl, by simp⟩ ?_, ?_⟩
    · intro l hl x hx
      rw [List.mem_singleton] at hl
      subst hl
      rw [List.mem_singleton] at hx
      subst hx
      exact ⟨lineDrawEx 0 0, fun _ => 0, p, hd, h0, fun _ => rfl⟩
    · simp [initSampler]

end Mica
