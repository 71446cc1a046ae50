import Verif.Spec.Reach
import Verif.Proof.Invariance3
import Verif.Proof.Sampler2
import Verif.Props.Wrap
import Mathlib.Logic.Relation

namespace Mica

variable {n : ℕ}

/-- A proposal leads from `x` to `x'` at the lowest level, whatever the number of levels and limits. -/
def Step0 (P : Perturb n) (x x' : Fin n → ℝ) : Prop :=
  ∀ (size : ℤ) (lim : ℤ → Fin n → ℝ × ℝ), ∃ cands h lh, P ⟨cands, h, 0, size, lim⟩ x = .ok (x', lh)

/-- The value the threshold of level `k` has. -/
def Above (ls : List LogL) (k : ℕ) (v : ℝ) : Prop := ∃ l, ls[k]? = some l ∧ l.value < v

theorem Above.of_map {ls : List Level} {k : ℕ} {v : ℝ} (h : Above (ls.map (·.logl)) k v) :
    ∃ l, ls[k]? = some l ∧ l.logl.value < v := by
  obtain ⟨l, h1, h2⟩ := h
  rw [List.getElem?_map] at h1
  obtain ⟨a, ha, rfl⟩ := Option.map_eq_some_iff.1 h1
  exact ⟨a, ha, h2⟩

/-- The level move can go to any level whose threshold the particle is above. -/
theorem levelMove_to (o : SOpts) (m which : ℕ) (t : TaskSt n) (p : Particle n) (k : ℕ)
    (hp : t.particles[which]? = some p) (hl : p.level < t.levels.length)
    (hk : Above (t.levels.map (·.logl)) k p.logl.value)
    (he : ∃ e, enoughLevels o m t.levels = .ok e)
    (hlim : o.flagLimits → t.levels.length ≤ t.limits.length) :
    ∃ la : LAIn, (0 ≤ la.uDir ∧ la.uDir < 1) ∧ (0 < la.uAcc ∧ la.uAcc < 1) ∧
      ∃ lims, updateLevelAssignment o m which la t =
          .ok { t with particles := t.particles.set which { p with level := k }, limits := lims } ∧
        lims.length = t.limits.length := by
  obtain ⟨lp, hlp, hv⟩ := hk.of_map
  have hkl : k < t.levels.length := by
    by_contra h; rw [List.getElem?_eq_none (by omega)] at hlp; cases hlp
  obtain ⟨e, he⟩ := he
  obtain ⟨lc, hlc⟩ : ∃ lc, t.levels[p.level]? = some lc := ⟨_, List.getElem?_eq_getElem hl⟩
  have hpush : ∀ w, w < t.levels.length → ∃ a, logPush o m t.levels w = .ok a := by
    intro w hw
    unfold logPush
    rw [if_neg (by omega), he, Res.ok_bind]
    by_cases h : e = true
    · rw [if_pos h]; exact ⟨_, rfl⟩
    · rw [if_neg h]; exact ⟨_, rfl⟩
  obtain ⟨a, ha⟩ := hpush k hkl
  obtain ⟨b, hb⟩ := hpush _ hl
  set A := levelLogA o e lc lp (a - b) with hA
  have hA0 : A ≤ 0 := by
    rw [hA]; unfold levelLogA; dsimp only
    generalize (if e = true then _ else _ : ℝ) = z
    by_cases hz : z > 0
    · rw [if_pos hz]
    · rw [if_neg hz]; linarith
  have hexp := Real.exp_pos A
  have hexp1 : Real.exp A ≤ 1 := Real.exp_le_one_iff.2 hA0
  -- the displacement
  obtain ⟨δ, hδ⟩ : ∃ δ : ℤ, modInt (proposeLevel p.level ⟨δ, 0, Real.exp A / 2⟩) t.levels.length
      = .ok (k : ℤ) := by
    have hpos : (0 : ℤ) < t.levels.length := by omega
    by_cases hjk : k = p.level
    · refine ⟨t.levels.length, ?_⟩
      have : proposeLevel p.level ⟨(t.levels.length : ℤ), 0, Real.exp A / 2⟩
          = p.level + t.levels.length := by
        unfold proposeLevel; rw [if_neg (by dsimp only; omega)]
      rw [this, C02_modInt_eq_emod _ _ hpos, Int.add_emod_right, Int.emod_eq_of_lt (by omega) (by omega),
        hjk]
    · refine ⟨(k : ℤ) - p.level, ?_⟩
      have : proposeLevel p.level ⟨(k : ℤ) - p.level, 0, Real.exp A / 2⟩ = k := by
        unfold proposeLevel; rw [if_neg (by dsimp only; omega)]; dsimp only; omega
      rw [this, C02_modInt_eq_emod _ _ hpos, Int.emod_eq_of_lt (by omega) (by omega)]
  refine ⟨⟨δ, 0, Real.exp A / 2⟩, by norm_num, ⟨by dsimp only; linarith, by dsimp only; linarith⟩, ?_⟩
  unfold updateLevelAssignment
  rw [Res.get_eq_ok.2 hp, Res.ok_bind, hδ, Res.ok_bind]
  simp only [Int.toNat_natCast]
  rw [Res.get_eq_ok.2 hlp, Res.ok_bind, Res.get_eq_ok.2 hlc, Res.ok_bind, ha, Res.ok_bind, hb, Res.ok_bind,
    he, Res.ok_bind, if_pos ⟨by rw [← hA]; linarith, hv⟩]
  by_cases hf : o.flagLimits = true
  · rw [if_pos hf]
    have hkm : k < t.limits.length := lt_of_lt_of_le hkl (hlim hf)
    rw [Res.get_eq_ok.2 (List.getElem?_eq_getElem hkm), Res.ok_bind]
    exact ⟨_, rfl, by simp⟩
  · rw [if_neg hf]
    exact ⟨_, rfl, rfl⟩

/-- The particle move at the lowest level can carry out any proposal. -/
theorem particleMove_to (P : Perturb n) (L : (Fin n → ℝ) → ℝ) (which : ℕ) (t : TaskSt n)
    (p : Particle n) (x' : Fin n → ℝ) (hp : t.particles[which]? = some p) (hl : p.level = 0)
    (hs : Step0 P p.params x') (hv : Above (t.levels.map (·.logl)) 0 (L x')) :
    ∃ cands h uAcc tie levels, (0 < uAcc ∧ uAcc < 1) ∧
      perturbUpdate P L which cands h 0 uAcc t =
        .ok { t with particles := t.particles.set which ⟨x', ⟨L x', tie⟩, 0⟩, levels := levels } ∧
      levels.map (·.logl) = t.levels.map (·.logl) := by
  obtain ⟨cands, h, lh, hP⟩ := hs t.levels.length (limitAt t.limits)
  obtain ⟨lv, hlv, hlt⟩ := hv.of_map
  have hpos : 0 < t.levels.length := by
    by_contra h; rw [List.getElem?_eq_none (by omega)] at hlv; cases hlv
  set c := (if lh > 0 then 0 else lh : ℝ) with hc
  have hc0 : c ≤ 0 := by rw [hc]; split <;> linarith
  have hexp := Real.exp_pos c
  have hexp1 : Real.exp c ≤ 1 := Real.exp_le_one_iff.2 hc0
  obtain ⟨tie, htie, -⟩ := C01_wrap_range (p.logl.tie + 0) 0 1 one_pos
  have hacc : acceptUP lv (⟨x', lh, 0, Real.exp c / 2⟩ : UPIn n) (L x') :=
    ⟨by dsimp only; rw [← hc]; linarith, hlt⟩
  set l1 := t.levels.set 0 { lv with accepts := lv.accepts + 1, tries := lv.tries + 1 } with hl1
  have hmap1 : l1.map (·.logl) = t.levels.map (·.logl) := by
    rw [hl1, List.map_set]
    refine List.ext_getElem? fun i => ?_
    rw [List.getElem?_set]
    split
    · rename_i hi; subst hi
      rw [if_pos (by simpa using hpos), List.getElem?_map, hlv]; rfl
    · rfl
  obtain ⟨ls', hls'⟩ := visitLoop_ok (L x') (l1.length - 1 - 0) 0 l1 rfl
  refine ⟨cands, h, Real.exp c / 2, tie, ls', ⟨by linarith, by linarith⟩, ?_, ?_⟩
  · unfold perturbUpdate
    rw [Res.get_eq_ok.2 hp, Res.ok_bind, hl]
    have hP' : P ⟨cands, h, ((0 : ℕ) : ℤ), t.levels.length, limitAt t.limits⟩ p.params = .ok (x', lh) := hP
    rw [hP', Res.ok_bind]
    unfold updateParticle
    rw [Res.get_eq_ok.2 hp, Res.ok_bind, hl, Res.get_eq_ok.2 hlv, Res.ok_bind]
    dsimp only
    rw [htie, Res.ok_bind, if_pos hacc, if_pos hacc]
    dsimp only
    rw [← hl1, hls', Res.ok_bind]
    rfl
  · exact ((visitLoop_steps _ _ _ _ _ hls').map_logl).symm.trans hmap1

theorem set_lt {α : Type} (l : List α) (i : ℕ) (x a : α) (h : l[i]? = some a) :
    (l.set i x)[i]? = some x := by
  have hi : i < l.length := by
    by_contra hh; rw [List.getElem?_eq_none (by omega)] at h; cases h
  rw [List.getElem?_set_self hi]

/-- What stays the same during the steps of one particle. -/
structure Table (o : SOpts) (m : ℕ) (ls : List LogL) (ps : List (Particle n)) (which : ℕ)
    (t : TaskSt n) : Prop where
  thr : t.levels.map (·.logl) = ls
  lim : o.flagLimits → ls.length ≤ t.limits.length
  others : ∃ p, t.particles = ps.set which p

/-- Reaching with the other conditions of `CanReach`. -/
def Reaches (P : Perturb n) (o : SOpts) (L : (Fin n → ℝ) → ℝ) (m which : ℕ) (ls : List LogL)
    (ps : List (Particle n)) (t : TaskSt n) (y : Fin n → ℝ) (k : ℕ) : Prop :=
  ∃ is : List (MoveIn n), (∀ i ∈ is, i.Drawn) ∧ ∃ t' tie, runMoves P o L m which is t = .ok t' ∧
    Table o m ls ps which t' ∧ t'.particles[which]? = some ⟨y, ⟨L y, tie⟩, k⟩

theorem runMoves_append (P : Perturb n) (o : SOpts) (L : (Fin n → ℝ) → ℝ) (m which : ℕ)
    (is js : List (MoveIn n)) (t t' : TaskSt n) (h : runMoves P o L m which is t = .ok t') :
    runMoves P o L m which (is ++ js) t = runMoves P o L m which js t' := by
  induction is generalizing t with
  | nil => simp only [runMoves, Res.ok.injEq] at h; subst h; rfl
  | cons i is ih =>
    simp only [runMoves, List.cons_append] at h ⊢
    obtain ⟨t1, h1, h2⟩ := Res.bind_eq_ok.1 h
    rw [h1, Res.ok_bind]
    exact ih t1 h2

section
variable (P : Perturb n) (o : SOpts) (L : (Fin n → ℝ) → ℝ) (m which : ℕ) (ls : List LogL)
  (ps : List (Particle n))

theorem Reaches.trans {t : TaskSt n} {x y : Fin n → ℝ} {j k : ℕ}
    (h1 : Reaches P o L m which ls ps t x j)
    (h2 : ∀ t' tie, Table o m ls ps which t' → t'.particles[which]? = some ⟨x, ⟨L x, tie⟩, j⟩ →
      Reaches P o L m which ls ps t' y k) : Reaches P o L m which ls ps t y k := by
  obtain ⟨is, hd, t1, tie, hr, hT, hp⟩ := h1
  obtain ⟨js, hd', t2, tie', hr', hT', hp'⟩ := h2 t1 tie hT hp
  refine ⟨is ++ js, fun i hi => ?_, t2, tie', ?_, hT', hp'⟩
  · rcases List.mem_append.1 hi with h | h
    · exact hd i h
    · exact hd' i h
  · rw [runMoves_append P o L m which is js t t1 hr, hr']

theorem enough_same {m : ℕ} {t : TaskSt n} (hT : Table o m ls ps which t)
    (he : ∀ l : List Level, l.map (·.logl) = ls → ∃ e, enoughLevels o m l = .ok e) :
    ∃ e, enoughLevels o m t.levels = .ok e := he _ hT.thr

/-- One step: particle move at the lowest level, then level move to `k`. -/
theorem step_to (he : ∀ l : List Level, l.map (·.logl) = ls → ∃ e, enoughLevels o m l = .ok e)
    {t : TaskSt n} (hT : Table o m ls ps which t) {x x' : Fin n → ℝ} {g : LogL} {k : ℕ}
    (hp : t.particles[which]? = some ⟨x, g, 0⟩) (hs : Step0 P x x') (h0 : Above ls 0 (L x'))
    (hk : Above ls k (L x')) : Reaches P o L m which ls ps t x' k := by
  obtain ⟨cands, h, uAcc, tie, levels, hu, hup, hlv⟩ :=
    particleMove_to P L which t _ x' hp rfl hs (by rw [hT.thr]; exact h0)
  set t1 : TaskSt n := { t with
    particles := t.particles.set which ⟨x', ⟨L x', tie⟩, 0⟩, levels := levels } with ht1
  have hp1 : t1.particles[which]? = some ⟨x', ⟨L x', tie⟩, 0⟩ := set_lt _ _ _ _ hp
  have hT1 : Table o m ls ps which t1 :=
    ⟨hlv.trans hT.thr, hT.lim, by obtain ⟨q, hq⟩ := hT.others; exact ⟨_, by
      rw [ht1]; dsimp only; rw [hq, List.set_set]⟩⟩
  have hlen : t1.levels.length = ls.length := by rw [← hT1.thr]; simp
  have hls : 0 < ls.length := by
    obtain ⟨l, hl, -⟩ := h0
    by_contra hh; rw [List.getElem?_eq_none (by omega)] at hl; cases hl
  obtain ⟨la, hdir, hacc, lims, hla, hlims⟩ := levelMove_to o m which t1 _ k hp1 (by dsimp only; omega)
    (by rw [hT1.thr]; exact hk) (he _ hT1.thr) (by rw [hlen]; exact hT1.lim)
  refine ⟨[⟨cands, 0, (0, (h, uAcc), (la.step, la.uDir, la.uAcc))⟩], ?_,
    { t1 with particles := t1.particles.set which ⟨x', ⟨L x', tie⟩, k⟩, limits := lims }, tie, ?_, ?_, ?_⟩
  · intro i hi
    rw [List.mem_singleton] at hi
    subst hi
    exact ⟨by norm_num, by norm_num, hu, hdir, hacc⟩
  · show (runMoves P o L m which [_] t) = _
    simp only [runMoves, samplerMove]
    rw [if_pos (by norm_num), hup, Res.ok_bind]
    have : (⟨la.step, la.uDir, la.uAcc⟩ : LAIn) = la := rfl
    rw [this, hla, Res.ok_bind]
  · refine ⟨hT1.thr, fun hf => ?_, ?_⟩
    · show ls.length ≤ lims.length
      rw [hlims]; exact hT1.lim hf
    · obtain ⟨q, hq⟩ := hT1.others
      exact ⟨_, by dsimp only; rw [hq, List.set_set]⟩
  · exact set_lt _ _ _ _ hp1

/-- One step: level move to the lowest level, then particle move. -/
theorem enter_to (he : ∀ l : List Level, l.map (·.logl) = ls → ∃ e, enoughLevels o m l = .ok e)
    {t : TaskSt n} (hT : Table o m ls ps which t) {p : Particle n} {x' : Fin n → ℝ}
    (hp : t.particles[which]? = some p) (hl : p.level < ls.length) (hs : Step0 P p.params x')
    (hv : Above ls 0 p.logl.value) (h0 : Above ls 0 (L x')) : Reaches P o L m which ls ps t x' 0 := by
  have hlen : t.levels.length = ls.length := by rw [← hT.thr]; simp
  obtain ⟨la, hdir, hacc, lims, hla, hlims⟩ := levelMove_to o m which t p 0 hp (by omega)
    (by rw [hT.thr]; exact hv) (he _ hT.thr) (by rw [hlen]; exact hT.lim)
  set t1 : TaskSt n := { t with
    particles := t.particles.set which { p with level := 0 }, limits := lims } with ht1
  have hp1 : t1.particles[which]? = some { p with level := 0 } := set_lt _ _ _ _ hp
  have hT1 : Table o m ls ps which t1 :=
    ⟨hT.thr, fun hf => by rw [ht1]; dsimp only; rw [hlims]; exact hT.lim hf, by
      obtain ⟨q, hq⟩ := hT.others; exact ⟨_, by rw [ht1]; dsimp only; rw [hq, List.set_set]⟩⟩
  obtain ⟨cands, h, uAcc, tie, levels, hu, hup, hlv⟩ :=
    particleMove_to P L which t1 _ x' hp1 rfl hs (by rw [hT1.thr]; exact h0)
  refine ⟨[⟨cands, 0, (3 / 4, (h, uAcc), (la.step, la.uDir, la.uAcc))⟩], ?_,
    { t1 with particles := t1.particles.set which ⟨x', ⟨L x', tie⟩, 0⟩, levels := levels }, tie, ?_, ?_, ?_⟩
  · intro i hi
    rw [List.mem_singleton] at hi
    subst hi
    exact ⟨by norm_num, by norm_num, hu, hdir, hacc⟩
  · show (runMoves P o L m which [_] t) = _
    simp only [runMoves, samplerMove]
    rw [if_neg (by norm_num)]
    have : (⟨la.step, la.uDir, la.uAcc⟩ : LAIn) = la := rfl
    rw [this, hla, Res.ok_bind, hup, Res.ok_bind]
  · refine ⟨hlv.trans hT1.thr, hT1.lim, ?_⟩
    obtain ⟨q, hq⟩ := hT1.others
    exact ⟨_, by dsimp only; rw [hq, List.set_set]⟩
  · exact set_lt _ _ _ _ hp1

/-- Any path of proposals, all whose points are above the lowest threshold, can be followed; then the
particle can go to any level its end point is above. -/
theorem path_reach (he : ∀ l : List Level, l.map (·.logl) = ls → ∃ e, enoughLevels o m l = .ok e)
    (S : Set (Fin n → ℝ)) (hS : ∀ z ∈ S, Above ls 0 (L z)) {x y : Fin n → ℝ} (hx : x ∈ S)
    (hpath : Relation.ReflTransGen (fun a b => Step0 P a b ∧ b ∈ S) x y) (hy : Step0 P y y)
    {t : TaskSt n} (hT : Table o m ls ps which t) {j k : ℕ} {tie : ℝ}
    (hp : t.particles[which]? = some ⟨x, ⟨L x, tie⟩, j⟩) (hj : j < ls.length) (hk : Above ls k (L y)) :
    Reaches P o L m which ls ps t y k := by
  have hyS : y ∈ S := by
    rcases Relation.ReflTransGen.cases_tail hpath with h | ⟨c, -, h⟩
    · exact h ▸ hx
    · exact h.2
  -- at the lowest level
  have main : ∀ t', Table o m ls ps which t' → ∀ tie' z,
      Relation.ReflTransGen (fun a b => Step0 P a b ∧ b ∈ S) z y → z ∈ S →
      t'.particles[which]? = some ⟨z, ⟨L z, tie'⟩, 0⟩ → Reaches P o L m which ls ps t' y k := by
    intro t' hT' tie' z hz hzS hp'
    induction hz using Relation.ReflTransGen.head_induction_on generalizing t' tie' with
    | refl => exact step_to P o L m which ls ps he hT' hp' hy (hS _ hyS) hk
    | head h _ ih =>
      exact (step_to P o L m which ls ps he hT' hp' h.1 (hS _ h.2) (hS _ h.2)).trans P o L m which ls ps
        fun t2 tie2 hT2 hp2 => ih t2 hT2 tie2 h.2 hp2
  rcases Relation.ReflTransGen.cases_head hpath with h | ⟨c, h, hc⟩
  · subst h
    exact (enter_to P o L m which ls ps he hT hp hj hy (hS _ hx) (hS _ hx)).trans P o L m which ls ps
      fun t2 tie2 hT2 hp2 => main t2 hT2 tie2 _ .refl hx hp2
  · exact (enter_to P o L m which ls ps he hT hp hj h.1 (hS _ hx) (hS _ h.2)).trans P o L m which ls ps
      fun t2 tie2 hT2 hp2 => main t2 hT2 tie2 _ hc h.2 hp2

/-- As `CanReach`. -/
theorem canReach_of {t : TaskSt n} {x y : Fin n → ℝ} {j k : ℕ} {tie : ℝ}
    (he : ∃ e, enoughLevels o m t.levels = .ok e)
    (hlim : o.flagLimits → t.levels.length ≤ t.limits.length)
    (S : Set (Fin n → ℝ)) (hS : ∀ z ∈ S, Above (t.levels.map (·.logl)) 0 (L z)) (hx : x ∈ S)
    (hpath : Relation.ReflTransGen (fun a b => Step0 P a b ∧ b ∈ S) x y) (hy : Step0 P y y)
    (hp : t.particles[which]? = some ⟨x, ⟨L x, tie⟩, j⟩) (hj : j < t.levels.length)
    (hk : Above (t.levels.map (·.logl)) k (L y)) : CanReach P o L m which t y k := by
  have hi : which < t.particles.length := by
    by_contra hh; rw [List.getElem?_eq_none (by omega)] at hp; cases hp
  have hT : Table o m (t.levels.map (·.logl)) t.particles which t :=
    ⟨rfl, by simpa using hlim, t.particles[which], (List.set_getElem_self hi).symm⟩
  obtain ⟨is, hd, t', tie', hr, hT', hp'⟩ := path_reach P o L m which _ _
    (fun l hl => by obtain ⟨e, h⟩ := he; exact ⟨e, by rw [enoughLevels_congr hl, h]⟩) S hS hx hpath hy hT
    hp (by simpa using hj) hk
  refine ⟨is, hd, t', tie', hr, ?_, hT'.thr⟩
  obtain ⟨q, hq⟩ := hT'.others
  rw [hq] at hp' ⊢
  rw [List.getElem?_set_self hi, Option.some.injEq] at hp'
  rw [hp']

end

end Mica
