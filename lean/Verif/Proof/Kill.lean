import Verif.Proof.SamplerSafe2

/-!
# Replacement of lagging particles: helper lemmas
-/

namespace Mica

variable {d : ℕ}

theorem killMark_flags {o : SOpts} {m : ℕ} {ls : List Level} {ps : List (Particle d)}
    {us : List ℝ} {mx : ℝ} {gs : List Bool} {m' : ℝ}
    (h : killMark o m ls ps us mx = .ok (gs, m')) :
    gs.length = ps.length ∧ ∀ (j : ℕ) (p : Particle d), ps[j]? = some p →
      ∃ u a, us[j]? = some u ∧ logPush o m ls p.level = .ok a ∧
        gs[j]? = some (decide (¬ u ≤ killProb a)) := by
  induction ps generalizing us mx gs m' with
  | nil => simp only [killMark] at h; cases h; simp
  | cons p ps ih =>
    cases us with
    | nil => simp [killMark] at h
    | cons u us =>
      simp only [killMark] at h
      obtain ⟨a, ha, h⟩ := Res.bind_eq_ok.1 h
      obtain ⟨⟨gs1, m1⟩, h1, h⟩ := Res.bind_eq_ok.1 h
      obtain ⟨hl, hh⟩ := ih h1
      cases h
      refine ⟨by simp [hl], ?_⟩
      intro j q hq
      cases j with
      | zero => simp at hq; subst hq; exact ⟨u, a, rfl, ha, rfl⟩
      | succ j => simpa using hh j q (by simpa using hq)

theorem killPick_good {o : SOpts} {m : ℕ} {ls : List Level} {good : List Bool} {mx : ℝ}
    {ps : List (Particle d)} {at_ : List (ℕ × ℝ)} {c : ℕ}
    (h : killPick o m ls good mx ps at_ = .ok c) : good[c]? = some true := by
  induction at_ with
  | nil => simp [killPick] at h
  | cons cu rest ih =>
    obtain ⟨c', u⟩ := cu
    simp only [killPick] at h
    obtain ⟨g, hg, h⟩ := Res.bind_eq_ok.1 h
    have hg := Res.get_eq_ok.1 hg
    split at h
    · exact ih h
    · rename_i hgt
      obtain ⟨p, _, h⟩ := Res.bind_eq_ok.1 h
      obtain ⟨a, _, h⟩ := Res.bind_eq_ok.1 h
      split at h
      · exact ih h
      · cases h; rw [hg]; simpa using hgt

theorem killCopy_spec {o : SOpts} {m : ℕ} {ls : List Level} {good : List Bool} {mx : ℝ}
    {gs : List Bool} {i : ℕ} {at_ : List (List (ℕ × ℝ))} {ps0 ps ps' : List (Particle d)}
    (hgs : ∀ j : ℕ, gs[j]? = good[i + j]?) (hl : ps.length = ps0.length)
    (hgood : ∀ j : ℕ, good[j]? = some true → ps[j]? = ps0[j]?)
    (hbad : ∀ j : ℕ, j < i → good[j]? = some false →
      ∃ c : ℕ, good[c]? = some true ∧ ps[j]? = ps0[c]?)
    (h : killCopy o m ls good mx gs i at_ ps = .ok ps') :
    ps'.length = ps0.length ∧ (∀ j : ℕ, good[j]? = some true → ps'[j]? = ps0[j]?) ∧
      (∀ j : ℕ, good[j]? = some false → ∃ c : ℕ, good[c]? = some true ∧ ps'[j]? = ps0[c]?) := by
  induction gs generalizing i at_ ps with
  | nil =>
    simp only [killCopy] at h; cases h
    refine ⟨hl, hgood, ?_⟩
    intro j hj
    by_cases hji : j < i
    · exact hbad j hji hj
    · have := hgs (j - i)
      rw [show i + (j - i) = j by omega, hj] at this
      simp at this
  | cons g gs ih =>
    have hg0 : good[i]? = some g := by simpa using (hgs 0).symm
    have hgs' : ∀ j : ℕ, gs[j]? = good[i + 1 + j]? := by
      intro j
      have := hgs (j + 1)
      rw [show i + 1 + j = i + (j + 1) by omega, ← this]; simp
    cases g with
    | true =>
      simp only [killCopy] at h
      refine ih hgs' hl hgood ?_ h
      intro j hj hjf
      by_cases hji : j < i
      · exact hbad j hji hjf
      · have : j = i := by omega
        subst this; rw [hg0] at hjf; cases hjf
    | false =>
      cases at_ with
      | nil => simp [killCopy] at h
      | cons a at_ =>
        simp only [killCopy] at h
        obtain ⟨c, hc, h⟩ := Res.bind_eq_ok.1 h
        obtain ⟨pc, hpc, h⟩ := Res.bind_eq_ok.1 h
        obtain ⟨ps2, hps2, h⟩ := Res.bind_eq_ok.1 h
        obtain ⟨hip, rfl⟩ := Res.put_eq_ok.1 hps2
        have hpc := Res.get_eq_ok.1 hpc
        have hgc := killPick_good hc
        refine ih hgs' (by simp [hl]) ?_ ?_ h
        · intro j hj
          rw [List.getElem?_set_ne]
          · exact hgood j hj
          · rintro rfl; rw [hg0] at hj; cases hj
        · intro j hj hjf
          by_cases hji : j = i
          · subst hji
            refine ⟨c, hgc, ?_⟩
            rw [List.getElem?_set_self hip, ← hpc]
            exact hgood c hgc
          · rw [List.getElem?_set_ne (Ne.symm hji)]
            exact hbad j (by omega) hjf

theorem killMark_total {o : SOpts} {m : ℕ} {ls : List Level} {e : Bool}
    (he : enoughLevels o m ls = .ok e) (ps : List (Particle d)) (us : List ℝ) (mx : ℝ)
    (hu : us.length = ps.length) (hp : ∀ p ∈ ps, p.level ≤ ls.length) :
    ∃ r, killMark o m ls ps us mx = .ok r := by
  induction ps generalizing us mx with
  | nil => exact ⟨_, rfl⟩
  | cons p ps ih =>
    cases us with
    | nil => simp at hu
    | cons u us =>
      have hpl : ∃ a, logPush o m ls p.level = .ok a := by
        unfold logPush
        rw [if_neg (by have := hp p (by simp); omega), he, Res.ok_bind]
        cases e <;> simp
      obtain ⟨a, ha⟩ := hpl
      simp only [killMark, ha, Res.ok_bind]
      obtain ⟨r, hr⟩ := ih us (if a > mx then a else mx) (by simpa using hu)
        (fun q hq => hp q (by simp [hq]))
      rw [hr]
      exact ⟨_, rfl⟩

theorem killPick_total {o : SOpts} {m : ℕ} {ls : List Level} {e : Bool}
    (he : enoughLevels o m ls = .ok e) (good : List Bool) (mx : ℝ) (ps : List (Particle d))
    (hp : ∀ p ∈ ps, p.level ≤ ls.length) (c : ℕ) (hc : c < ps.length)
    (hg : good[c]? = some true) : killPick o m ls good mx ps [(c, 0)] = .ok c := by
  have hpl : ∃ a, logPush o m ls ps[c].level = .ok a := by
    unfold logPush
    rw [if_neg (by have := hp ps[c] (by simp); omega), he, Res.ok_bind]
    cases e <;> simp
  obtain ⟨a, ha⟩ := hpl
  have hgl := (List.getElem?_eq_some_iff.1 hg)
  obtain ⟨h1, h2⟩ := hgl
  simp only [killPick, Res.get_of_lt h1, Res.ok_bind, h2, Res.get_of_lt hc, ha]
  rw [if_neg (by simp), if_neg (by have := Real.exp_pos (a - mx); linarith)]
  rfl

theorem killCopy_total {o : SOpts} {m : ℕ} {ls : List Level} {e : Bool}
    (he : enoughLevels o m ls = .ok e) (good : List Bool) (mx : ℝ) (c : ℕ)
    (hg : good[c]? = some true) (gs : List Bool) (i : ℕ) (ps : List (Particle d))
    (hp : ∀ p ∈ ps, p.level ≤ ls.length) (hc : c < ps.length) (hi : i + gs.length ≤ ps.length) :
    ∃ ps', killCopy o m ls good mx gs i (List.replicate gs.length [(c, 0)]) ps = .ok ps' := by
  have drop : ∀ (gs : List Bool) (i : ℕ) (n : ℕ) (ps : List (Particle d)), gs.length ≤ n →
      (∀ p ∈ ps, p.level ≤ ls.length) → c < ps.length → i + gs.length ≤ ps.length →
      ∃ ps', killCopy o m ls good mx gs i (List.replicate n [(c, 0)]) ps = .ok ps' := by
    intro gs
    induction gs with
    | nil => intro i n ps _ _ _ _; exact ⟨ps, by simp [killCopy]⟩
    | cons g gs ih =>
      intro i n ps hn hp hc hi
      simp only [List.length_cons] at hn hi
      cases g with
      | true => simp only [killCopy]; exact ih _ _ _ (by omega) hp hc (by omega)
      | false =>
        obtain ⟨n, rfl⟩ : ∃ k, n = k + 1 := ⟨n - 1, by omega⟩
        simp only [List.replicate_succ, killCopy, killPick_total he good mx ps hp c hc hg,
          Res.ok_bind, Res.get_of_lt hc]
        rw [Res.put_of_lt (by omega), Res.ok_bind]
        refine ih _ _ _ (by omega) ?_ (by simpa using hc) (by simp; omega)
        intro p hpm
        rcases List.mem_or_eq_of_mem_set hpm with hpm | hpm
        · exact hp p hpm
        · subst hpm; exact hp _ (by simp)
  exact drop gs i _ ps le_rfl hp hc hi

end Mica
