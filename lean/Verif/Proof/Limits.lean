import Verif.Proof.SamplerSafe2
import Verif.Spec.SamplerLimits

/-!
# Limits: helper lemmas
-/

namespace Mica

variable {d : ℕ}

theorem Lim.inside_refl (a : Lim d) : a.inside a := fun _ => ⟨le_rfl, le_rfl⟩

theorem Lim.inside_trans {a b c : Lim d} (h1 : a.inside b) (h2 : b.inside c) : a.inside c :=
  fun i => ⟨(h2 i).1.trans (h1 i).1, (h1 i).2.trans (h2 i).2⟩

theorem Lim.has_of_inside {a b : Lim d} {x : Fin d → ℝ} (h1 : a.has x) (h2 : a.inside b) : b.has x :=
  fun i => ⟨(h2 i).1.trans (h1 i).1, (h1 i).2.trans (h2 i).2⟩

theorem extendLim_inside (a : Lim d) (x : Fin d → ℝ) : a.inside (extendLim a x) :=
  fun _ => ⟨min_le_left _ _, le_max_left _ _⟩

theorem extendLim_has (a : Lim d) (x : Fin d → ℝ) : (extendLim a x).has x :=
  fun _ => ⟨min_le_right _ _, le_max_right _ _⟩

theorem unionLim_left (a b : Lim d) : a.inside (unionLim a b) :=
  fun _ => ⟨min_le_left _ _, le_max_left _ _⟩

theorem unionLim_right (a b : Lim d) : b.inside (unionLim a b) :=
  fun _ => ⟨min_le_right _ _, le_max_right _ _⟩

theorem unionLim_le {a b c : Lim d} (h1 : a.inside c) (h2 : b.inside c) : (unionLim a b).inside c :=
  fun i => ⟨le_min (h1 i).1 (h2 i).1, max_le (h1 i).2 (h2 i).2⟩

theorem LimsWiden.refl (a : List (Lim d)) : LimsWiden a a := fun _ x h => ⟨x, h, x.inside_refl⟩

theorem LimsWiden.trans {a b c : List (Lim d)} (h1 : LimsWiden a b) (h2 : LimsWiden b c) :
    LimsWiden a c := by
  intro j x hx
  obtain ⟨y, hy, hxy⟩ := h1 j x hx
  obtain ⟨z, hz, hyz⟩ := h2 j y hy
  exact ⟨z, hz, Lim.inside_trans hxy hyz⟩

theorem LimsWiden.set {a : List (Lim d)} {k : ℕ} {x y : Lim d} (hk : a[k]? = some x)
    (h : x.inside y) : LimsWiden a (a.set k y) := by
  intro j z hz
  by_cases hj : k = j
  · subst hj
    rw [hk] at hz; cases hz
    exact ⟨y, by rw [List.getElem?_set_self (List.getElem?_eq_some_iff.1 hk).1], h⟩
  · exact ⟨z, by rw [List.getElem?_set_ne hj]; exact hz, z.inside_refl⟩

theorem updateLevel_limits {o : SOpts} {m w : ℕ} {i : LAIn} {t t' : TaskSt d}
    (h : updateLevelAssignment o m w i t = .ok t') : LimsWiden t.limits t'.limits ∧
      ∀ j, t.levels.length ≤ j → t'.limits[j]? = t.limits[j]? := by
  rcases updateLevel_shape h with rfl | ⟨p, prop, _, hpr, _, _, _, ⟨_, lim, hl, h2⟩ | ⟨_, h2⟩⟩
  · exact ⟨LimsWiden.refl _, fun _ _ => rfl⟩
  · rw [h2]
    refine ⟨LimsWiden.set hl (extendLim_inside _ _), fun j hj => ?_⟩
    rw [List.getElem?_set_ne (by omega)]
  · rw [h2]; exact ⟨LimsWiden.refl _, fun _ _ => rfl⟩

theorem updateLevel_len {o : SOpts} {m w : ℕ} {i : LAIn} {t t' : TaskSt d}
    (h : updateLevelAssignment o m w i t = .ok t') : t'.levels.length = t.levels.length := by
  rcases updateLevel_shape h with rfl | ⟨p, prop, _, hpr, _, _, hl, _⟩
  · rfl
  · rw [hl]

theorem updateParticle_len {L : (Fin d → ℝ) → ℝ} {w : ℕ} {i : UPIn d} {t t' : TaskSt d}
    (h : updateParticle L w i t = .ok t') : t'.levels.length = t.levels.length := by
  unfold updateParticle at h
  obtain ⟨p, _, h⟩ := Res.bind_eq_ok.1 h
  obtain ⟨lv, _, h⟩ := Res.bind_eq_ok.1 h
  obtain ⟨tie, _, h⟩ := Res.bind_eq_ok.1 h
  obtain ⟨lvs, hv, h⟩ := Res.bind_eq_ok.1 h
  cases h
  have := (visitLoop_steps _ _ _ _ _ hv).length
  simpa using this

theorem mcmcStep_limits {o : SOpts} {L : (Fin d → ℝ) → ℝ} {m : ℕ} {i : StepIn d} {t t' : TaskSt d}
    (h : mcmcStep o L m i t = .ok t') : LimsWiden t.limits t'.limits ∧
      t'.levels.length = t.levels.length ∧
      ∀ j, t.levels.length ≤ j → t'.limits[j]? = t.limits[j]? := by
  unfold mcmcStep at h
  obtain ⟨t1, h1, h⟩ := Res.bind_eq_ok.1 h
  have key : LimsWiden t.limits t1.limits ∧ t1.levels.length = t.levels.length ∧
      ∀ j, t.levels.length ≤ j → t1.limits[j]? = t.limits[j]? := by
    unfold mcmcMove at h1
    split at h1 <;> obtain ⟨t2, h2, h3⟩ := Res.bind_eq_ok.1 h1
    · have a := updateLevel_limits h3
      have b := updateParticle_len h2
      rw [(updateParticle_above h2).2, b] at a
      exact ⟨a.1, by rw [updateLevel_len h3, b], a.2⟩
    · have a := updateLevel_limits h2
      rw [(updateParticle_above h3).2]
      exact ⟨a.1, by rw [updateParticle_len h3, updateLevel_len h2], a.2⟩
  obtain ⟨e, he, h⟩ := Res.bind_eq_ok.1 h
  split at h
  · cases h; exact key
  · obtain ⟨last, _, h⟩ := Res.bind_eq_ok.1 h
    obtain ⟨p, _, h⟩ := Res.bind_eq_ok.1 h
    split at h
    · split at h
      · cases h; exact key
      · cases h
    · cases h; exact key

theorem mcmcRun_limits {o : SOpts} {L : (Fin d → ℝ) → ℝ} {m : ℕ} {is : List (StepIn d)}
    {t t' : TaskSt d} (h : mcmcRun o L m is t = .ok t') : LimsWiden t.limits t'.limits ∧
      ∀ j, t.levels.length ≤ j → t'.limits[j]? = t.limits[j]? := by
  induction is generalizing t with
  | nil => cases h; exact ⟨LimsWiden.refl _, fun _ _ => rfl⟩
  | cons i is ih =>
    simp only [mcmcRun] at h
    obtain ⟨t1, h1, h⟩ := Res.bind_eq_ok.1 h
    obtain ⟨a1, a2, a3⟩ := mcmcStep_limits h1
    obtain ⟨b1, b2⟩ := ih h
    refine ⟨a1.trans b1, fun j hj => ?_⟩
    rw [b2 j (by omega), a3 j hj]

theorem runTasks_limits {o : SOpts} {L : (Fin d → ℝ) → ℝ} {ls : List Level}
    {lim : List (Lim d)} {m : ℕ} {pss : List (List (Particle d))} {iss : List (List (StepIn d))}
    {ts : List (TaskSt d)} (h : runTasks o L ls lim m pss iss = .ok ts) :
    ∀ t ∈ ts, LimsWiden lim t.limits ∧ ∀ j, ls.length ≤ j → t.limits[j]? = lim[j]? := by
  induction pss generalizing m iss ts with
  | nil => simp only [runTasks] at h; cases h; simp
  | cons ps pss ih =>
    cases iss with
    | nil => simp [runTasks] at h
    | cons is iss =>
      simp only [runTasks] at h
      obtain ⟨t, ht, h⟩ := Res.bind_eq_ok.1 h
      obtain ⟨ts1, hts1, h⟩ := Res.bind_eq_ok.1 h
      cases h
      intro x hx
      rcases List.mem_cons.1 hx with hx | hx
      · subst hx; exact mcmcRun_limits ht
      · exact ih hts1 x hx

/-! ### Merging -/

theorem mergeLimTask_get (n : ℕ) (a b : List (Lim d)) (j : ℕ) (x : Lim d) (hx : a[j]? = some x) :
    ∃ y, (mergeLimTask n a b)[j]? = some y ∧ x.inside y ∧
      (∀ z, j < n → b[j]? = some z → y = unionLim x z) ∧ (n ≤ j → y = x) ∧
      (b[j]? = none → y = x) := by
  induction n generalizing a b j with
  | zero =>
    have : mergeLimTask 0 a b = a := by cases a <;> rfl
    exact ⟨x, by rw [this]; exact hx, x.inside_refl, by omega, fun _ => rfl, fun _ => rfl⟩
  | succ n ih =>
    cases a with
    | nil => simp at hx
    | cons a0 a =>
      cases b with
      | nil => exact ⟨x, by simpa [mergeLimTask] using hx, x.inside_refl, by simp, fun _ => rfl, fun _ => rfl⟩
      | cons b0 b =>
        cases j with
        | zero =>
          simp at hx; subst hx
          exact ⟨unionLim a0 b0, by simp [mergeLimTask], unionLim_left _ _, by simp, by simp, by simp⟩
        | succ j =>
          obtain ⟨y, h1, h2, h3, h4, h5⟩ := ih a b j (by simpa using hx)
          refine ⟨y, by simpa [mergeLimTask] using h1, h2, ?_, fun h => h4 (by omega), ?_⟩
          · intro z hz hbz
            exact h3 z (by omega) (by simpa using hbz)
          · intro hb; exact h5 (by simpa using hb)

theorem mergeLimTask_widen (n : ℕ) (a b : List (Lim d)) : LimsWiden a (mergeLimTask n a b) := by
  intro j x hx
  obtain ⟨y, h1, h2, _⟩ := mergeLimTask_get n a b j x hx
  exact ⟨y, h1, h2⟩

theorem foldMerge_widen (n : ℕ) (cs : List (List (Lim d))) (a : List (Lim d)) :
    LimsWiden a (cs.foldl (fun acc c => mergeLimTask n acc c) a) := by
  induction cs generalizing a with
  | nil => exact LimsWiden.refl _
  | cons c cs ih => rw [List.foldl_cons]; exact (mergeLimTask_widen n a c).trans (ih _)

theorem foldMerge_get (n : ℕ) (cs : List (List (Lim d))) (a : List (Lim d)) (c : List (Lim d))
    (hc : c ∈ cs) (j : ℕ) (hj : j < n) (hja : j < a.length) (x : Lim d) (hx : c[j]? = some x) :
    ∃ y, (cs.foldl (fun acc c => mergeLimTask n acc c) a)[j]? = some y ∧ x.inside y := by
  induction cs generalizing a with
  | nil => simp at hc
  | cons c0 cs ih =>
    rw [List.foldl_cons]
    rcases List.mem_cons.1 hc with hc | hc
    · subst hc
      obtain ⟨y, h1, _, h3, _⟩ := mergeLimTask_get n a c j a[j] (by simp [hja])
      obtain ⟨z, hz, hyz⟩ := foldMerge_widen n cs _ j y h1
      refine ⟨z, hz, ?_⟩
      rw [h3 x hj hx] at hyz
      exact Lim.inside_trans (unionLim_right _ _) hyz
    · exact ih _ hc (by rw [mergeLimTask_length]; exact hja)

theorem foldMerge_high (n : ℕ) (cs : List (List (Lim d))) (a : List (Lim d)) (j : ℕ) (hj : n ≤ j) :
    (cs.foldl (fun acc c => mergeLimTask n acc c) a)[j]? = a[j]? := by
  induction cs generalizing a with
  | nil => rfl
  | cons c cs ih =>
    rw [List.foldl_cons, ih]
    cases ha : a[j]? with
    | none =>
      rw [List.getElem?_eq_none_iff] at ha ⊢
      rw [mergeLimTask_length]; exact ha
    | some x =>
      obtain ⟨y, h1, _, _, h4, _⟩ := mergeLimTask_get n a c j x ha
      rw [h1, h4 hj]

/-- Everything contained in limits `c` stays contained. -/
theorem foldMerge_le (n : ℕ) (cs : List (List (Lim d))) (a : List (Lim d)) (j : ℕ) (B : Lim d)
    (ha : ∀ x, a[j]? = some x → x.inside B)
    (hc : ∀ c ∈ cs, ∀ x, c[j]? = some x → x.inside B) :
    ∀ y, (cs.foldl (fun acc c => mergeLimTask n acc c) a)[j]? = some y → y.inside B := by
  induction cs generalizing a with
  | nil => exact ha
  | cons c cs ih =>
    rw [List.foldl_cons]
    refine ih _ ?_ (fun c' hc' => hc c' (by simp [hc']))
    intro y hy
    have hja : j < a.length := by
      have := (List.getElem?_eq_some_iff.1 hy).1
      rwa [mergeLimTask_length] at this
    obtain ⟨y', h1, _, h3, h4, h5⟩ := mergeLimTask_get n a c j a[j] (by simp [hja])
    rw [hy] at h1; cases h1
    have hx := ha a[j] (by simp [hja])
    by_cases hjn : j < n
    · cases hb : c[j]? with
      | none => rw [h5 hb]; exact hx
      | some z => rw [h3 z hjn hb]; exact unionLim_le hx (hc c (by simp) z hb)
    · rw [h4 (by omega)]; exact hx

/-- The sweep widens, leaves levels from `n-1` on alone, and makes the first `n` levels nested. -/
theorem sweepLim_spec (n : ℕ) (a : List (Lim d)) :
    LimsWiden a (sweepLim n a) ∧ (∀ j, n ≤ j + 1 → (sweepLim n a)[j]? = a[j]?) ∧
    ∀ (j : ℕ) (x y : Lim d), j + 1 < n → (sweepLim n a)[j]? = some x →
      (sweepLim n a)[j + 1]? = some y → y.inside x := by
  induction n generalizing a with
  | zero => exact ⟨by simpa [sweepLim] using LimsWiden.refl a, by simp [sweepLim], by omega⟩
  | succ n ih =>
    cases n with
    | zero => exact ⟨by simpa [sweepLim] using LimsWiden.refl a, by simp [sweepLim], by omega⟩
    | succ n =>
      cases a with
      | nil => exact ⟨by simpa [sweepLim] using LimsWiden.refl _, by simp [sweepLim], by simp [sweepLim]⟩
      | cons a0 a =>
        cases a with
        | nil =>
          exact ⟨by simpa [sweepLim] using LimsWiden.refl _, by simp [sweepLim], by simp [sweepLim]⟩
        | cons a1 a =>
          obtain ⟨h1, h2, h3⟩ := ih (a1 :: a)
          have hlen := sweepLim_length (n + 1) (a1 :: a)
          simp only [sweepLim]
          split
          · rename_i h; rw [h] at hlen; simp at hlen
          · rename_i b' rest' hb
            rw [hb] at h1 h2 h3
            refine ⟨?_, ?_, ?_⟩
            · intro j x hx
              cases j with
              | zero => simp at hx; subst hx; exact ⟨_, rfl, unionLim_left _ _⟩
              | succ j => simpa using h1 j x (by simpa using hx)
            · intro j hj
              obtain ⟨j, rfl⟩ : ∃ k, j = k + 1 := ⟨j - 1, by omega⟩
              simpa using h2 j (by omega)
            · intro j x y hj hx hy
              cases j with
              | zero => simp at hx hy; subst hx hy; exact unionLim_right _ _
              | succ j => exact h3 j x y (by omega) (by simpa using hx) (by simpa using hy)

theorem nested_of_adjacent {a : List (Lim d)}
    (h : ∀ (j : ℕ) (x y : Lim d), a[j]? = some x → a[j + 1]? = some y → y.inside x) :
    LimsNested a := by
  intro i j x y hij hx hy
  induction j, hij using Nat.le_induction generalizing y with
  | base => rw [hx] at hy; cases hy; exact x.inside_refl
  | succ j hij ih =>
    have hlt : j < a.length := by have := (List.getElem?_eq_some_iff.1 hy).1; omega
    exact Lim.inside_trans (h j a[j] y (by simp [hlt]) hy) (ih a[j] (by simp [hlt]))

/-- Initial limits. -/
noncomputable def lim0 (d : ℕ) : Lim d := fun _ => (DBL_MAX, -DBL_MAX)

/-- Invariant: levels that do not exist yet have initial limits, all limits contain the initial ones,
and limits are nested. -/
structure LimInv (s : Sampler d) : Prop where
  hi : ∀ (j : ℕ) (x : Lim d), s.levels.length ≤ j → s.limits[j]? = some x → x = lim0 d
  lo : ∀ (j : ℕ) (x : Lim d), s.limits[j]? = some x → (lim0 d).inside x
  nest : LimsNested s.limits

theorem round_limits {o : SOpts} (hf : o.flagLimits = true) {L : (Fin d → ℝ) → ℝ} {i : RoundIn d}
    {s s' : Sampler d} (h : round o L i s = .ok s') :
    LimsWiden s.limits s'.limits ∧
    (∃ ts, runTasks o L s.levels s.limits s.maxLvRoot s.tasks i.steps = .ok ts ∧
      ∀ t ∈ ts, ∀ (j : ℕ) (x : Lim d), j < s.levels.length → j < s.limits.length →
        t.limits[j]? = some x → ∃ y, s'.limits[j]? = some y ∧ x.inside y) ∧
    (∀ (j : ℕ) (x y : Lim d), j + 1 < s.levels.length → s'.limits[j]? = some x →
        s'.limits[j + 1]? = some y → y.inside x) ∧
    (∀ j : ℕ, s.levels.length ≤ j → s'.limits[j]? = s.limits[j]?) := by
  unfold round at h
  obtain ⟨ts, hts, h⟩ := Res.bind_eq_ok.1 h
  obtain ⟨s1, hs1, h⟩ := Res.bind_eq_ok.1 h
  obtain ⟨root, b, _, hroot, hb, rfl⟩ := gatherTasks_shape hs1
  rw [(saveStep_levels h).2.1]
  dsimp only
  rw [if_pos hf]
  have hl := runTasks_limits hts
  have hr := hl root (List.mem_of_getElem? hroot)
  unfold mergeLimits
  obtain ⟨s1, s2, s3⟩ := sweepLim_spec s.levels.length
    ((ts.map (·.limits)).foldl (fun acc c => mergeLimTask s.levels.length acc c) root.limits)
  refine ⟨(hr.1.trans (foldMerge_widen _ _ _)).trans s1, ⟨ts, hts, ?_⟩, s3, ?_⟩
  · intro t ht j x hj hjl hx
    have hjr : j < root.limits.length := by
      obtain ⟨y, hy, _⟩ := hr.1 j s.limits[j] (by simp [hjl])
      exact (List.getElem?_eq_some_iff.1 hy).1
    obtain ⟨y, hy, hxy⟩ := foldMerge_get s.levels.length (ts.map (·.limits)) root.limits t.limits
      (List.mem_map_of_mem ht) j hj hjr x hx
    obtain ⟨z, hz, hyz⟩ := s1 j y hy
    exact ⟨z, hz, Lim.inside_trans hxy hyz⟩
  · intro j hj
    rw [s2 j (by omega), foldMerge_high _ _ _ _ hj, hr.2 j hj]

theorem round_levels_length {o : SOpts} {L : (Fin d → ℝ) → ℝ} {i : RoundIn d}
    {s s' : Sampler d} (hi : SInv L s) (h : round o L i s = .ok s') :
    s.levels.length ≤ s'.levels.length := by
  unfold round at h
  obtain ⟨ts, hts, h⟩ := Res.bind_eq_ok.1 h
  obtain ⟨s1, hs1, h⟩ := Res.bind_eq_ok.1 h
  have ht := runTasks_inv o L _ hi.thr _ _ _ _ _ hi.part hts
  have hcomb : LvSteps s.levels (mergeLevels s.levels (ts.map (·.levels)) s.levels) := by
    refine mergeLevels_steps _ _ _ ?_ rfl
    intro p hp
    obtain ⟨t, htm, rfl⟩ := List.mem_map.1 hp
    exact (ht t htm).steps
  rw [(saveStep_levels h).1]
  obtain ⟨root, b, _, _, hb, rfl⟩ := gatherTasks_shape hs1
  dsimp only
  rcases doBookkeeping_spec _ _ _ _ _ _ _ _ hb with ⟨hm, _⟩ | ⟨v, ab, _, _, _, hm, _⟩
  · have := congrArg List.length hm
    simp only [List.length_map] at this
    rw [this, hcomb.length]
  · have := congrArg List.length hm
    simp only [List.length_map, List.length_append] at this
    rw [this, hcomb.length]; simp

theorem round_limInv {o : SOpts} (hf : o.flagLimits = true) {L : (Fin d → ℝ) → ℝ} {i : RoundIn d}
    {s s' : Sampler d} (hi : SInv L s) (hl : LimInv s) (h : round o L i s = .ok s') :
    LimInv s' := by
  obtain ⟨hw, _, hn, hh⟩ := round_limits hf h
  have hlen := round_levels_length hi h
  have hlenl : s'.limits.length = s.limits.length := by
    unfold round at h
    obtain ⟨ts, hts, h⟩ := Res.bind_eq_ok.1 h
    obtain ⟨s1, hs1, h⟩ := Res.bind_eq_ok.1 h
    obtain ⟨root, b, _, hroot, hb, rfl⟩ := gatherTasks_shape hs1
    rw [(saveStep_levels h).2.1]
    dsimp only
    rw [if_pos hf, mergeLimits_length]
    have hr := runTasks_limits hts root (List.mem_of_getElem? hroot)
    apply le_antisymm
    · by_contra hlt
      have := hr.2
      by_cases hsz : s.levels.length ≤ s.limits.length
      · have h1 := hr.2 s.limits.length hsz
        rw [List.getElem?_eq_none_iff.2 (le_refl s.limits.length), List.getElem?_eq_none_iff] at h1
        omega
      · have h1 := hr.2 (max s.levels.length s.limits.length) (le_max_left _ _)
        rw [List.getElem?_eq_none_iff.2 (le_max_right s.levels.length s.limits.length)] at h1
        -- lengths never change inside a task
        exact hlt (by
          have hlen' : ∀ (m : ℕ) (pss : List (List (Particle d))) (iss : List (List (StepIn d)))
              (ts : List (TaskSt d)), runTasks o L s.levels s.limits m pss iss = .ok ts →
              ∀ t ∈ ts, t.limits.length = s.limits.length := by
            intro m pss
            induction pss generalizing m with
            | nil => intro iss ts h; simp only [runTasks] at h; cases h; simp
            | cons ps pss ih =>
              intro iss ts h
              cases iss with
              | nil => simp [runTasks] at h
              | cons is iss =>
                simp only [runTasks] at h
                obtain ⟨t, ht, h⟩ := Res.bind_eq_ok.1 h
                obtain ⟨ts1, hts1, h⟩ := Res.bind_eq_ok.1 h
                cases h
                intro x hx
                rcases List.mem_cons.1 hx with hx | hx
                · subst hx
                  have hstep : ∀ (is : List (StepIn d)) (t t' : TaskSt d),
                      mcmcRun o L m is t = .ok t' → t'.limits.length = t.limits.length := by
                    intro is
                    induction is with
                    | nil => intro t t' h; cases h; rfl
                    | cons i is ih2 =>
                      intro t t' h
                      simp only [mcmcRun] at h
                      obtain ⟨t1, h1, h⟩ := Res.bind_eq_ok.1 h
                      rw [ih2 _ _ h]
                      unfold mcmcStep at h1
                      obtain ⟨t2, h2, h1⟩ := Res.bind_eq_ok.1 h1
                      have hla : ∀ (w : ℕ) (i : LAIn) (t t' : TaskSt d),
                          updateLevelAssignment o m w i t = .ok t' →
                          t'.limits.length = t.limits.length := by
                        intro w i t t' h
                        rcases updateLevel_shape h with
                          rfl | ⟨p, prop, _, _, _, _, _, ⟨_, lim, _, h2⟩ | ⟨_, h2⟩⟩
                        · rfl
                        · rw [h2]; simp
                        · rw [h2]
                      have h2' : t2.limits.length = t.limits.length := by
                        unfold mcmcMove at h2
                        split at h2 <;> obtain ⟨t3, h3, h4⟩ := Res.bind_eq_ok.1 h2
                        · rw [hla _ _ _ _ h4, (updateParticle_above h3).2]
                        · rw [(updateParticle_above h4).2, hla _ _ _ _ h3]
                      rw [← h2']
                      obtain ⟨e, he, h1⟩ := Res.bind_eq_ok.1 h1
                      split at h1
                      · cases h1; rfl
                      · obtain ⟨last, _, h1⟩ := Res.bind_eq_ok.1 h1
                        obtain ⟨p, _, h1⟩ := Res.bind_eq_ok.1 h1
                        split at h1
                        · split at h1
                          · cases h1; rfl
                          · cases h1
                        · cases h1; rfl
                  exact hstep _ _ _ ht
                · exact ih _ _ _ hts1 x hx
          exact (hlen' _ _ _ _ hts root (List.mem_of_getElem? hroot)).le)
    · by_contra hlt
      obtain ⟨y, hy, _⟩ := hr.1 (root.limits.length) (s.limits[root.limits.length]'(by omega))
        (by simp)
      have := (List.getElem?_eq_some_iff.1 hy).1
      omega
  have hlo : ∀ (j : ℕ) (x : Lim d), s'.limits[j]? = some x → (lim0 d).inside x := by
    intro j x hx
    have hj : j < s.limits.length := by
      have := (List.getElem?_eq_some_iff.1 hx).1; omega
    obtain ⟨y, hy, hxy⟩ := hw j s.limits[j] (by simp [hj])
    rw [hx] at hy; cases hy
    exact Lim.inside_trans (hl.lo j s.limits[j] (by simp [hj])) hxy
  refine ⟨?_, hlo, ?_⟩
  · intro j x hj hx
    rw [hh j (by omega)] at hx
    exact hl.hi j x (by omega) hx
  · refine nested_of_adjacent ?_
    intro j x y hx hy
    by_cases hj : j + 1 < s.levels.length
    · exact hn j x y hj hx hy
    · rw [hh (j + 1) (by omega)] at hy
      rw [hl.hi (j + 1) y (by omega) hy]
      exact hlo j x hx

theorem reachable_limInv {o : SOpts} (hf : o.flagLimits = true) {L : (Fin d → ℝ) → ℝ}
    (hL : ∀ x, -DBL_MAX ≤ L x) {s : Sampler d} (h : Reachable o L s) : LimInv s := by
  obtain ⟨tie, draws, ins, hd, hv, h⟩ := h
  refine (run_induct (P := fun s => SInv L s ∧ LimInv s)
    ins _ _ ⟨init_inv o L hL tie draws, ?_⟩ ?_ h).2
  · have hall : ∀ (j : ℕ) (x : Lim d), (initSampler o L tie draws).limits[j]? = some x →
        x = lim0 d := by
      intro j x hx
      have := List.mem_of_getElem? hx
      simp only [initSampler] at this
      exact List.eq_of_mem_replicate this
    refine ⟨fun j x _ hx => hall j x hx, fun j x hx => ?_, ?_⟩
    · rw [hall j x hx]; exact Lim.inside_refl _
    · intro i j x y _ hx hy
      rw [hall i x hx, hall j y hy]; exact Lim.inside_refl _
  · intro i hi a b ⟨h1, h2⟩ _ hr
    exact ⟨round_inv o L i a b h1 hr, round_limInv hf h1 h2 hr⟩

end Mica
