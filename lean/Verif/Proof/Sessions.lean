import Verif.Spec.Sessions
import Verif.Props.Restart
import Verif.Proof.SamplerSafe2

/-!
# Lemmas on interrupted executions
-/

namespace Mica

variable {d : ℕ}

theorem Res.bind_assoc {α β γ : Type} (r : Res α) (f : α → Res β) (g : β → Res γ) :
    ((r >>= f) >>= g) = (r >>= fun a => f a >>= g) := by
  cases r <;> rfl

/-- A round does not look at the rows already saved. -/
theorem round_file (o : SOpts) (L : (Fin d → ℝ) → ℝ) (i : RoundIn d) (s : Sampler d) (f : List (Particle d)) :
    round o L i { s with saved := f } = (do
      let s' ← round o L i { s with saved := [] }
      return { s' with saved := f ++ s'.saved }) := by
  unfold round
  rw [Res.bind_assoc]
  dsimp only
  congr 1
  funext ts
  rw [Res.bind_assoc]
  unfold gatherTasks
  dsimp only
  split
  · rfl
  · rw [Res.bind_assoc, Res.bind_assoc]
    congr 1
    funext root
    rw [Res.bind_assoc, Res.bind_assoc]
    congr 1
    funext b
    change saveStep o i _ = (saveStep o i _ >>= _)
    unfold saveStep
    dsimp only
    split
    · rw [Res.bind_assoc]
      congr 1
      funext ps
      rw [Res.bind_assoc]
      rfl
    · change Res.ok _ = Res.ok _
      simp

/-- The invariant of interrupted executions. -/
structure SessInv (L : (Fin d → ℝ) → ℝ) (o : SOpts) (s : Sampler d) : Prop where
  inv : SInv L { s with saved := [] }
  shape : SShape o s

theorem SessInv.safe {L : (Fin d → ℝ) → ℝ} {o : SOpts} (ho : GoodOpts o) {s : Sampler d} (h : SessInv L o s)
    {i : RoundIn d} (hv : ValidRound o i) : (round o L i s).safe (SessInv L o) := by
  have hs := h.shape
  have key := round_file o L i s s.saved
  change round o L i s = _ at key
  rw [key]
  have h1 := round_safe ho L i hv { s with saved := [] } h.inv ⟨hs.nt, hs.np, hs.lv, hs.cap, hs.lim, hs.mx⟩
  refine Res.safe_bind h1 fun s' hr hs' => ?_
  have hi := round_inv o L i _ s' h.inv hr
  exact ⟨⟨hi.thr, hi.part, hi.counts, hi.above, by simp⟩,
    ⟨hs'.nt, hs'.np, hs'.lv, hs'.cap, hs'.lim, hs'.mx⟩⟩

theorem readRestart_saves {o o' : SOpts} {L : (Fin d → ℝ) → ℝ} {file : List (Particle d)} {s b : Sampler d}
    (h : readRestart o' L file (writeRestart o s) = .ok b) : s.countSaves % 2 ^ 32 ≤ o'.maxNumSaves := by
  unfold readRestart writeRestart at h
  simp only [writeInt, List.cons_append, List.nil_append, rdInt, Res.ok_bind] at h
  obtain ⟨size, _, h⟩ := Res.bind_eq_ok.1 h
  obtain ⟨_, _, h⟩ := Res.bind_eq_ok.1 h
  obtain ⟨_, _, h⟩ := Res.bind_eq_ok.1 h
  obtain ⟨_, _, h⟩ := Res.bind_eq_ok.1 h
  obtain ⟨_, _, h⟩ := Res.bind_eq_ok.1 h
  split at h
  · cases h
  · omega

/-- What resuming gives. -/
theorem SessInv.resume {L : (Fin d → ℝ) → ℝ} {o : SOpts} (h32 : o.maxNumLevels < 2 ^ 32) {s : Sampler d}
    (h : SessInv L o s) (n : ℕ) (file : List (Particle d)) (hn : s.countSaves % 2 ^ 32 ≤ n) :
    readRestart { o with maxNumSaves := n } L file (writeRestart o s) = .ok
      { tasks := s.tasks
        levels := s.levels
        limits := if o.flagLimits then
            s.limits.take s.levels.length ++
              List.replicate (o.levelCap - s.levels.length) (fun _ => (DBL_MAX, -DBL_MAX))
          else List.replicate o.levelCap (fun _ => (DBL_MAX, -DBL_MAX))
        allAbove := []
        maxLvRoot := o.maxNumLevels
        countMcmc := s.countMcmc % 2 ^ 32
        countSaves := s.countSaves % 2 ^ 32
        saved := file } := by
  have hsh := h.shape
  have hi := h.inv
  have hcap32 : o.levelCap < 2 ^ 32 := by
    unfold SOpts.levelCap
    split
    · exact h32
    · norm_num
  have hlev : ∀ ps ∈ s.tasks, ∀ p ∈ ps, p.level < s.levels.length := fun ps hps => (hsh.np ps hps).2
  have hcap := hsh.cap
  have key := readRestart_write o { o with maxNumSaves := n } L file s s.levels.length rfl hsh.nt
    (fun ps hps => (hsh.np ps hps).1) (fun ps hps p hp => by have := hlev ps hps p hp; omega)
    (by omega) (by rw [hsh.lim]; exact hcap) (restartSize_self hcap) hn
  rw [List.take_length] at key
  have hmap : (s.tasks.map fun ps => ps.map fun p =>
      (if p.level > s.levels.length - 1 then s.levels.length - 1 else p.level, p.logl)) =
      s.tasks.map fun ps => ps.map fun p => (p.level, p.logl) := by
    refine List.map_congr_left fun ps hps => List.map_congr_left fun p hp => ?_
    have := hlev ps hps p hp
    rw [if_neg (by omega)]
  rw [hmap, restartTasks_same L s.levels s.tasks hi.part, List.take_take, min_self] at key
  exact key

theorem sessions_inv {L : (Fin d → ℝ) → ℝ} (hL : ∀ x, -DBL_MAX ≤ L x) {o : SOpts} {s : Sampler d}
    (ho : GoodOpts o) (h32 : o.maxNumLevels < 2 ^ 32) (h : Sessions L o s) : SessInv L o s := by
  induction h with
  | start o tie draws hd => exact ⟨init_inv o L hL tie draws, init_shape L tie draws hd⟩
  | round i _ hv hr ih => exact Res.safe_ok ((ih ho h32).safe ho hv) hr
  | @resume o a b n file ha hr ih =>
    have ha' : SessInv L o a := ih ⟨ho.np, ho.nt, ho.nli, ho.chk, ho.comp⟩ h32
    have h32' : o.maxNumLevels < 2 ^ 32 := h32
    have key := ha'.resume h32' n file (readRestart_saves hr)
    rw [hr] at key
    cases key
    have hi := ha'.inv
    have hs := ha'.shape
    refine ⟨⟨hi.thr, hi.part, hi.counts, by simp, by simp⟩, ⟨hs.nt, hs.np, hs.lv, hs.cap, ?_, .inl rfl⟩⟩
    have h1 := hs.lim
    have h2 := hs.cap
    change (if o.flagLimits then _ else _ : List (Lim d)).length = o.levelCap
    split
    · rw [List.length_append, List.length_take, List.length_replicate]; omega
    · rw [List.length_replicate]

end Mica
