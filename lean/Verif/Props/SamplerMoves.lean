import Verif.Proof.SamplerExample
import Verif.Proof.Sampler2
import Verif.Props.Wrap

/-!
# The two MCMC moves of the sampler: C53 (acceptance), C57 (counters), C58 (level moves)
-/

namespace Mica

variable {d : ℕ}

open Classical in
/-- Shape of one particle move. -/
theorem updateParticle_shape {L : (Fin d → ℝ) → ℝ} {w : ℕ} {i : UPIn d} {t t' : TaskSt d}
    (h : updateParticle L w i t = .ok t') : ∃ p lv tie p' lvs, t.particles[w]? = some p ∧
      t.levels[p.level]? = some lv ∧ dnestWrap (p.logl.tie + i.uTie) 0 1 = .ok tie ∧
      p' = (if acceptUP lv i (L i.proposal) then
        { p with params := i.proposal, logl := ⟨L i.proposal, tie⟩ } else p) ∧
      visitLoop p'.logl.value (t.levels.length - 1 - p.level) p.level
        (t.levels.set p.level { lv with
          accepts := if acceptUP lv i (L i.proposal) then lv.accepts + 1 else lv.accepts
          tries := lv.tries + 1 }) = .ok lvs ∧
      t' = { t with particles := t.particles.set w p', levels := lvs } := by
  unfold updateParticle at h
  obtain ⟨p, hp, h⟩ := Res.bind_eq_ok.1 h
  obtain ⟨lv, hlv, h⟩ := Res.bind_eq_ok.1 h
  obtain ⟨tie, htie, h⟩ := Res.bind_eq_ok.1 h
  obtain ⟨lvs, hlvs, h⟩ := Res.bind_eq_ok.1 h
  refine ⟨p, lv, tie, _, lvs, Res.get_eq_ok.1 hp, Res.get_eq_ok.1 hlv, htie, rfl, ?_,
    (Res.ok.inj h).symm⟩
  simpa using hlvs

theorem acceptUP_iff (lv : Level) (i : UPIn d) (v : ℝ) :
    acceptUP lv i v ↔ i.uAcc ≤ min 1 (Real.exp i.logH) ∧ lv.logl.value < v := by
  unfold acceptUP
  have : Real.exp (if i.logH > 0 then 0 else i.logH) = min 1 (Real.exp i.logH) := by
    split
    · rename_i hpos
      rw [Real.exp_zero, min_eq_left]
      exact Real.one_le_exp hpos.le
    · rename_i hneg
      rw [min_eq_right]
      exact Real.exp_le_one_iff.2 (not_lt.1 hneg)
  rw [this]

open Classical in
/-- C53: a proposal is accepted exactly when the uniform number is at most `min(1, exp(log H))` and
its likelihood lies above the threshold of the particle's level.  On acceptance the particle takes
the proposal, its likelihood, and a tiebreaker in [0,1); otherwise it is unchanged.  Its level and all
other particles never change. -/
theorem C53_acceptance (L : (Fin d → ℝ) → ℝ) (w : ℕ) (i : UPIn d) (t t' : TaskSt d)
    (h : updateParticle L w i t = .ok t') : ∃ p p' lv, t.particles[w]? = some p ∧
      t.levels[p.level]? = some lv ∧ t'.particles[w]? = some p' ∧
      (i.uAcc ≤ min 1 (Real.exp i.logH) ∧ lv.logl.value < L i.proposal →
        p'.params = i.proposal ∧ p'.logl.value = L i.proposal ∧ p'.level = p.level ∧
        0 ≤ p'.logl.tie ∧ p'.logl.tie < 1) ∧
      (¬ (i.uAcc ≤ min 1 (Real.exp i.logH) ∧ lv.logl.value < L i.proposal) → p' = p) ∧
      (∀ v, v ≠ w → t'.particles[v]? = t.particles[v]?) := by
  obtain ⟨p, lv, tie, p', lvs, hp, hlv, htie, rfl, hvis, rfl⟩ := updateParticle_shape h
  have hw := (List.getElem?_eq_some_iff.1 hp).1
  refine ⟨p, (if acceptUP lv i (L i.proposal) then
    { p with params := i.proposal, logl := ⟨L i.proposal, tie⟩ } else p), lv, hp, hlv, by simp [hw], ?_, ?_, ?_⟩
  · intro hacc
    rw [if_pos ((acceptUP_iff lv i _).2 hacc)]
    obtain ⟨y, hy, h0, h1, _⟩ := C01_wrap_range (p.logl.tie + i.uTie) 0 1 (by norm_num)
    rw [htie] at hy
    cases hy
    exact ⟨rfl, rfl, rfl, h0, h1⟩
  · intro hacc
    rw [if_neg (fun hh => hacc ((acceptUP_iff lv i _).1 hh))]
  · intro v hv
    simp [List.getElem?_set_ne (Ne.symm hv)]

open Classical in
/-- C57: what the counters count.  For a task whose thresholds never decrease, one particle move
changes the counters of level `j` by exactly:
one try and (if accepted) one acceptance at the particle's level; one visit at every level from the
particle's level up whose own threshold is exceeded (the particle's level itself always) except the
top level; one exceedance at those whose next threshold is exceeded. -/
theorem C57_counters (L : (Fin d → ℝ) → ℝ) (w : ℕ) (i : UPIn d) (t t' : TaskSt d)
    (hmono : ∀ (i j : ℕ) (a b : Level), i ≤ j → t.levels[i]? = some a → t.levels[j]? = some b →
      a.logl.value ≤ b.logl.value)
    (h : updateParticle L w i t = .ok t') : ∃ p p' cur, t.particles[w]? = some p ∧
      t'.particles[w]? = some p' ∧ t.levels[p.level]? = some cur ∧
      ∀ (j : ℕ) (l : Level), t.levels[j]? = some l → ∃ l', t'.levels[j]? = some l' ∧
        l'.logl = l.logl ∧ l'.logX = l.logX ∧
        l'.tries = l.tries + (if j = p.level then 1 else 0) ∧
        l'.accepts = l.accepts + (if j = p.level ∧ i.uAcc ≤ min 1 (Real.exp i.logH) ∧
          cur.logl.value < L i.proposal then 1 else 0) ∧
        l'.visits = l.visits + (if p.level ≤ j ∧ j + 1 < t.levels.length ∧
          (j = p.level ∨ l.logl.value < p'.logl.value) then 1 else 0) ∧
        l'.exceeds = l.exceeds + (if p.level ≤ j ∧ ∃ nx, t.levels[j + 1]? = some nx ∧
          nx.logl.value < p'.logl.value then 1 else 0) := by
  obtain ⟨p, lv, tie, p', lvs, hp, hlv, htie, hp', hvis, rfl⟩ := updateParticle_shape h
  have hw := (List.getElem?_eq_some_iff.1 hp).1
  have hpl := (List.getElem?_eq_some_iff.1 hlv).1
  refine ⟨p, p', lv, hp, by simp [hw], hlv, ?_⟩
  generalize hlv' : ({ lv with
          accepts := if acceptUP lv i (L i.proposal) then lv.accepts + 1 else lv.accepts
          tries := lv.tries + 1 } : Level) = lv' at hvis
  have hlogl : lv'.logl = lv.logl := by rw [← hlv']
  have hback : ∀ (i : ℕ) (y : Level), (t.levels.set p.level lv')[i]? = some y →
      ∃ z, t.levels[i]? = some z ∧ z.logl = y.logl := by
    intro i y hy
    rw [List.getElem?_set] at hy
    split at hy
    · rename_i hci; subst hci
      cases hy; exact ⟨lv, hlv, hlogl.symm⟩
    · exact ⟨y, hy, rfl⟩
  have hfwd : ∀ (i : ℕ) (z : Level), t.levels[i]? = some z →
      ∃ y, (t.levels.set p.level lv')[i]? = some y ∧ z.logl = y.logl := by
    intro i z hz
    by_cases hi : i = p.level
    · subst hi
      rw [hlv] at hz; cases hz
      exact ⟨lv', by simp [hpl], hlogl.symm⟩
    · exact ⟨z, by rw [List.getElem?_set_ne (Ne.symm hi)]; exact hz, rfl⟩
  intro j l hl
  obtain ⟨l1, hl1, hl1e⟩ := hfwd j l hl
  obtain ⟨l', h1, h2, h3, h4, h5, h6, h7, h8⟩ := visitLoop_counts p'.logl.value _ p.level _ lvs
    (by simp) (by
      intro i j x y hij hx hy
      obtain ⟨x', hx', ex⟩ := hback i x hx
      obtain ⟨y', hy', ey⟩ := hback j y hy
      rw [← ex, ← ey]; exact hmono i j x' y' hij hx' hy') hvis j l1 hl1
  have hex : l'.exceeds = l1.exceeds + (if p.level ≤ j ∧ ∃ nx, t.levels[j + 1]? = some nx ∧
          nx.logl.value < p'.logl.value then 1 else 0) := by
    cases hnx : (t.levels.set p.level lv')[j + 1]? with
    | none =>
      rw [h8 hnx, if_neg]; · rfl
      rintro ⟨_, nx, hn, _⟩
      obtain ⟨y, hy, _⟩ := hfwd _ nx hn
      rw [hnx] at hy; cases hy
    | some y =>
      rw [h7 y hnx]
      congr 1
      obtain ⟨z, hz, hze⟩ := hback _ y hnx
      refine if_congr (and_congr_right fun _ => ?_) rfl rfl
      constructor
      · intro hlt; exact ⟨z, hz, by rw [hze]; exact hlt⟩
      · rintro ⟨nx, hn, hlt⟩
        rw [hz] at hn; cases hn
        rw [← hze]; exact hlt
  simp only [List.length_set] at h6
  rw [← hl1e] at h6
  refine ⟨l', h1, by rw [h2, hl1e], ?_⟩
  by_cases hj : j = p.level
  · subst hj
    rw [hlv] at hl; cases hl
    have : l1 = lv' := by simpa [hpl] using hl1.symm
    subst this
    have e1 : l1.logX = lv.logX := by rw [← hlv']
    have e2 : l1.tries = lv.tries + 1 := by rw [← hlv']
    have e3 : l1.accepts = lv.accepts + (if acceptUP lv i (L i.proposal) then 1 else 0) := by
      rw [← hlv']; dsimp only; split <;> rfl
    have e4 : l1.visits = lv.visits := by rw [← hlv']
    have e5 : l1.exceeds = lv.exceeds := by rw [← hlv']
    refine ⟨by rw [h3, e1], by rw [h4, e2, if_pos rfl], ?_, by rw [h6, e4], by rw [hex, e5]⟩
    rw [h5, e3]
    congr 1
    refine if_congr ?_ rfl rfl
    rw [acceptUP_iff]; simp
  · have : l1 = l := by
      rw [List.getElem?_set_ne (Ne.symm hj), hl] at hl1
      exact (Option.some.inj hl1).symm
    subst this
    refine ⟨h3, by rw [h4, if_neg hj]; rfl, ?_, h6, hex⟩
    rw [h5, if_neg (fun hh => hj hh.1)]; rfl

/-- C58: a level move proposes an existing level `q` (the displaced level wrapped into the table; the
displacement is never zero).  The particle goes to `q` exactly when the threshold of `q` lies below its
likelihood and the uniform number is at most `min(1, X(old)/X(q) * weight(q)/weight(old))`; while levels
are being created `weight(k) = exp(k/lambda)`, afterwards the weight is `(tries + 1)^(-beta)`.
Parameters, likelihoods, counters and other particles never change. -/
theorem C58_level_move (o : SOpts) (maxLv w : ℕ) (i : LAIn) (t t' : TaskSt d)
    (h : updateLevelAssignment o maxLv w i t = .ok t') : ∃ (p p' : Particle d) (lc lp : Level) (e : Bool)
      (q : ℕ), t.particles[w]? = some p ∧ t'.particles[w]? = some p' ∧ t.levels[p.level]? = some lc ∧ t.levels[q]? = some lp ∧
      (q : ℤ) = proposeLevel p.level i % (t.levels.length : ℤ) ∧ proposeLevel p.level i ≠ p.level ∧
      enoughLevels o maxLv t.levels = .ok e ∧
      p'.params = p.params ∧ p'.logl = p.logl ∧ t'.levels = t.levels ∧ t'.above = t.above ∧
      (∀ v, v ≠ w → t'.particles[v]? = t.particles[v]?) ∧
      (lp.logl.value < p.logl.value ∧
        i.uAcc ≤ min 1 (Real.exp (lc.logX - lp.logX +
          (if e then o.beta * (Real.log (lc.tries + 1) - Real.log (lp.tries + 1))
            else ((q : ℝ) - p.level) / o.lam))) → p'.level = q) ∧
      (¬ (lp.logl.value < p.logl.value ∧
        i.uAcc ≤ min 1 (Real.exp (lc.logX - lp.logX +
          (if e then o.beta * (Real.log (lc.tries + 1) - Real.log (lp.tries + 1))
            else ((q : ℝ) - p.level) / o.lam)))) → p'.level = p.level) := by
  unfold updateLevelAssignment at h
  obtain ⟨p, hp, h⟩ := Res.bind_eq_ok.1 h
  obtain ⟨r, hr, h⟩ := Res.bind_eq_ok.1 h
  obtain ⟨lp, hlp, h⟩ := Res.bind_eq_ok.1 h
  obtain ⟨lc, hlc, h⟩ := Res.bind_eq_ok.1 h
  obtain ⟨a, ha, h⟩ := Res.bind_eq_ok.1 h
  obtain ⟨b, hb, h⟩ := Res.bind_eq_ok.1 h
  obtain ⟨e, he, h⟩ := Res.bind_eq_ok.1 h
  have hp := Res.get_eq_ok.1 hp
  have hlp := Res.get_eq_ok.1 hlp
  have hlc := Res.get_eq_ok.1 hlc
  have hw := (List.getElem?_eq_some_iff.1 hp).1
  have hlen : 0 < t.levels.length := by
    have := (List.getElem?_eq_some_iff.1 hlc).1; omega
  have hrr : r = proposeLevel p.level i % (t.levels.length : ℤ) := by
    have := C02_modInt_eq_emod (proposeLevel p.level i) t.levels.length (by exact_mod_cast hlen)
    rw [hr] at this
    exact Res.ok.inj this
  have hr0 : (r.toNat : ℤ) = proposeLevel p.level i % (t.levels.length : ℤ) := by
    rw [← hrr, Int.toNat_of_nonneg]
    rw [hrr]; exact Int.emod_nonneg _ (by exact_mod_cast hlen.ne')
  have hne : proposeLevel p.level i ≠ p.level := by
    unfold proposeLevel
    split
    · rename_i h0
      split <;> omega
    · assumption
  have hpush : a - b = if e then 0 else ((r.toNat : ℝ) - p.level) / o.lam := by
    unfold logPush at ha hb
    split at ha
    · cases ha
    · split at hb
      · cases hb
      · rw [he] at ha hb
        cases e with
        | true =>
          simp at ha hb
          rw [← ha, ← hb]; simp
        | false =>
          simp only [Res.ok_bind, Bool.false_eq_true, if_false, Res.pure_eq, Res.ok.injEq] at ha hb ⊢
          rw [← ha, ← hb]; push_cast; ring
  have hlogA : Real.exp (levelLogA o e lc lp (a - b)) = min 1 (Real.exp (lc.logX - lp.logX +
          (if e then o.beta * (Real.log (lc.tries + 1) - Real.log (lp.tries + 1))
            else ((r.toNat : ℝ) - p.level) / o.lam))) := by
    have hval : levelLogA o e lc lp (a - b) = min 0 (lc.logX - lp.logX +
          (if e then o.beta * (Real.log (lc.tries + 1) - Real.log (lp.tries + 1))
            else ((r.toNat : ℝ) - p.level) / o.lam)) := by
      unfold levelLogA
      rw [hpush]
      have hlog : Real.log (((lc.tries : ℝ) + 1) / ((lp.tries : ℝ) + 1)) =
          Real.log (lc.tries + 1) - Real.log (lp.tries + 1) :=
        Real.log_div (by positivity) (by positivity)
      have hmin : ∀ x : ℝ, (if x > 0 then 0 else x) = min 0 x := by
        intro x; split
        · rw [min_eq_left]; linarith
        · rw [min_eq_right]; linarith
      cases e with
      | true =>
        simp only [if_true, hlog]
        rw [hmin]; congr 1; ring
      | false =>
        simp only [Bool.false_eq_true, if_false]
        rw [hmin]; congr 1; ring
    rw [hval, Real.exp_monotone.map_min, Real.exp_zero]
  have hother : ∀ (x : Particle d) v, v ≠ w → (t.particles.set w x)[v]? = t.particles[v]? := by
    intro x v hv; rw [List.getElem?_set_ne (Ne.symm hv)]
  have hset : ∀ x : Particle d, (t.particles.set w x)[w]? = some x := by intro x; simp [hw]
  split at h
  · rename_i hacc
    rw [hlogA] at hacc
    split at h
    · obtain ⟨lim, _, h⟩ := Res.bind_eq_ok.1 h
      cases h
      exact ⟨p, { p with level := r.toNat }, lc, lp, e, r.toNat, hp, hset _, hlc, hlp, hr0, hne, he,
        rfl, rfl, rfl, rfl, hother _, fun _ => rfl, fun hn => absurd ⟨hacc.2, hacc.1⟩ hn⟩
    · cases h
      exact ⟨p, { p with level := r.toNat }, lc, lp, e, r.toNat, hp, hset _, hlc, hlp, hr0, hne, he,
        rfl, rfl, rfl, rfl, hother _, fun _ => rfl, fun hn => absurd ⟨hacc.2, hacc.1⟩ hn⟩
  · rename_i hna
    rw [hlogA] at hna
    cases h
    exact ⟨p, p, lc, lp, e, r.toNat, hp, hp, hlc, hlp, hr0, hne, he, rfl, rfl, rfl, rfl,
      fun _ _ => rfl, fun hh => absurd ⟨hh.2, hh.1⟩ hna, fun _ => rfl⟩

/-! Concrete cases: the move of the example run is accepted; its level move is evaluated. -/

example : ∃ t', updateParticle exL 0 ⟨fun _ => 3, 0, 0, 0⟩
    ⟨[⟨fun _ => 1, ⟨1, 0⟩, 0⟩], exLv0, [], []⟩ = .ok t' ∧ t'.particles ≠ [⟨fun _ => 1, ⟨1, 0⟩, 0⟩] :=
  ⟨_, ex_up [], by simp⟩

example : ∃ t', updateLevelAssignment exOpts 2 0 ⟨1, 0, 0⟩
      ⟨[⟨fun _ => 3, ⟨3, 0⟩, 0⟩], [⟨⟨-DBL_MAX, 0⟩, 0, 0, 0, 1, 1⟩], [fun _ => (1, 1)], []⟩ = .ok (t' : TaskSt 1) :=
  ⟨_, ex_la _ []⟩

end Mica
