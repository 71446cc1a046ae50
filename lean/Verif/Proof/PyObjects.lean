import Verif.Spec.PyObjects

/-! # Helper lemmas for `Verif/Props/PyObjects.lean` -/

namespace Mica

theorem objSession_append (mode : ℕ → Mode) : ∀ (a b : List ObjOp) (s : PyProc),
    objSession mode (a ++ b) s =
      objSession mode a s >>= fun x => objSession mode b x.1 >>= fun y => .ok (y.1, x.2 ++ y.2)
  | [], b, s => by
    simp only [List.nil_append, objSession, Res.ok_bind]
    cases objSession mode b s <;> rfl
  | op :: a, b, s => by
    simp only [List.cons_append, objSession]
    cases objStep mode s op with
    | ok x =>
      simp only [Res.ok_bind, objSession_append mode a b]
      cases objSession mode a x.1 with
      | ok y =>
        simp only [Res.ok_bind]
        cases objSession mode b y.1 <;> simp
      | _ => rfl
    | _ => rfl

theorem objSession_snoc (mode : ℕ → Mode) (a : List ObjOp) (op : ObjOp) (s : PyProc) :
    objSession mode (a ++ [op]) s =
      objSession mode a s >>= fun x => objStep mode x.1 op >>= fun y => .ok (y.1, x.2 ++ y.2) := by
  rw [objSession_append]
  cases objSession mode a s with
  | ok x =>
    simp only [Res.ok_bind, objSession]
    cases objStep mode x.1 op <;> simp
  | _ => rfl

/-- What is known of the process after the history `past` (newest first). -/
structure ObjInv (mode : ℕ → Mode) (past : List ObjOp) (s : PyProc) : Prop where
  set : s.set = (lastSet mode past).getD ⟨0, 0, []⟩
  prior : s.prior = lastFile past
  load : ∀ i, (s.obj i).load = gaveFile i past
  cap : ∀ i, (s.obj i).cap = roomOf mode i past
  diff : ∀ i, (s.obj i).set.diff = roomOf mode i past
  nmap : ∀ i, mode i = .nmap → (s.obj i).set.low = 1 ∧ (s.obj i).set.diff = 0

theorem objInv_nil (mode : ℕ → Mode) : ObjInv mode [] {} :=
  ⟨rfl, rfl, fun _ => rfl, fun _ => rfl, fun _ => rfl, fun _ _ => ⟨rfl, rfl⟩⟩

theorem setup_fields {mode : ℕ → Mode} {past : List ObjOp} {s : PyProc} (h : ObjInv mode past s) (i low upp : ℕ) (data : CStr) :
    let o := (s.obj i).setup (mode i) low upp data
    o.set = askedSet (mode i) low upp data ∧ o.load = gaveFile i past ∧ o.cap = (askedSet (mode i) low upp data).diff := by
  have hl := h.load i
  have hc := h.cap i
  have hd := h.diff i
  have hn := h.nmap i
  cases hm : mode i <;> simp_all [ProcObj.setup, askedSet]

theorem setupRaises_iff {mode : ℕ → Mode} {past : List ObjOp} {s : PyProc} (h : ObjInv mode past s) (i low upp : ℕ)
    (data : CStr) :
    setupRaises (mode i) ((s.obj i).setup (mode i) low upp data) = true ↔
      (mode i ≠ .pmap ∧ mode i ≠ .nmap ∧ low < upp ∧ gaveFile i past = true) := by
  obtain ⟨h1, h2, _⟩ := setup_fields h i low upp data
  simp only [setupRaises, h1, h2, decide_eq_true_eq]
  cases hm : mode i <;> simp [askedSet] <;> constructor <;> rintro ⟨a, b⟩ <;> refine ⟨?_, ?_⟩ <;> first | assumption | omega

theorem ObjInv.step {mode : ℕ → Mode} {past : List ObjOp} {s s' : PyProc} {op : ObjOp} {e : List ObjEv}
    (h : ObjInv mode past s) (hs : objStep mode s op = .ok (s', e)) : ObjInv mode (op :: past) s' := by
  cases op with
  | setup i low upp data =>
    obtain ⟨h1, h2, h3⟩ := setup_fields h i low upp data
    have hr := setupRaises_iff h i low upp data
    simp only [objStep] at hs
    have hnm : mode i = .nmap → (askedSet (mode i) low upp data).low = 1 ∧ (askedSet (mode i) low upp data).diff = 0 := by
      intro hm; simp [hm, askedSet]
    by_cases hx : setupRaises (mode i) ((s.obj i).setup (mode i) low upp data) = true
    · rw [if_pos hx] at hs
      obtain ⟨rfl, rfl⟩ := Prod.mk.inj (Res.ok.inj hs)
      refine ⟨?_, ?_, fun k => ?_, fun k => ?_, fun k => ?_, fun k hk => ?_⟩
      · simp only [lastSet, if_pos (hr.1 hx), PyProc.put, h.set]
      · simp only [lastFile, PyProc.put, h.prior]
      all_goals
        by_cases hki : k = i
        · subst hki; simp_all [PyProc.put, gaveFile, roomOf]
        · have := h.load k; have := h.cap k; have := h.diff k; have := h.nmap k
          have hik : ¬ i = k := fun h => hki h.symm
          simp_all [PyProc.put, gaveFile, roomOf]
    · rw [if_neg hx] at hs
      obtain ⟨rfl, rfl⟩ := Prod.mk.inj (Res.ok.inj hs)
      refine ⟨?_, ?_, fun k => ?_, fun k => ?_, fun k => ?_, fun k hk => ?_⟩
      · simp only [lastSet, if_neg (fun hc => hx (hr.2 hc)), h1, Option.getD_some]
      · simp only [lastFile, PyProc.put, h.prior]
      all_goals
        by_cases hki : k = i
        · subst hki; simp_all [PyProc.put, gaveFile, roomOf]
        · have := h.load k; have := h.cap k; have := h.diff k; have := h.nmap k
          have hik : ¬ i = k := fun h => hki h.symm
          simp_all [PyProc.put, gaveFile, roomOf]
  | setPriors i f =>
    simp only [objStep] at hs
    split at hs
    · obtain ⟨rfl, -⟩ := Prod.mk.inj (Res.ok.inj hs)
      refine ⟨h.set, rfl, fun k => ?_, fun k => ?_, fun k => ?_, fun k hk => ?_⟩
      all_goals
        by_cases hki : k = i
        · subst hki
          have := h.load k; have := h.cap k; have := h.diff k; have := h.nmap k
          simp_all [PyProc.put, gaveFile, roomOf]
        · have := h.load k; have := h.cap k; have := h.diff k; have := h.nmap k
          have hik : ¬ i = k := fun h => hki h.symm
          simp_all [PyProc.put, gaveFile, roomOf]
    · simp at hs
  | run i =>
    simp only [objStep] at hs
    split at hs
    · obtain ⟨rfl, -⟩ := Prod.mk.inj (Res.ok.inj hs)
      exact ⟨h.set, h.prior, h.load, h.cap, h.diff, h.nmap⟩
    · simp at hs

theorem objInv_session {mode : ℕ → Mode} : ∀ {ops past : List ObjOp} {s s' : PyProc} {e : List ObjEv},
    ObjInv mode past s → objSession mode ops s = .ok (s', e) → ObjInv mode (ops.reverse ++ past) s'
  | [], past, s, s', e, h, hs => by
    obtain ⟨rfl, -⟩ := Prod.mk.inj (Res.ok.inj hs)
    simpa using h
  | op :: ops, past, s, s', e, h, hs => by
    simp only [objSession, Res.bind_eq_ok] at hs
    obtain ⟨⟨s1, e1⟩, h1, ⟨s2, e2⟩, h2, h3⟩ := hs
    obtain ⟨rfl, -⟩ := Prod.mk.inj (Res.ok.inj h3)
    have := objInv_session (h.step h1) h2
    simpa using this

theorem objInv_of {mode : ℕ → Mode} {ops : List ObjOp} {s : PyProc} {e : List ObjEv}
    (hs : objSession mode ops {} = .ok (s, e)) : ObjInv mode ops.reverse s := by
  simpa using objInv_session (objInv_nil mode) hs

theorem lastSet_noSetup (mode : ℕ → Mode) (past : List ObjOp) : ∀ {t : List ObjOp}, NoSetup t →
    lastSet mode (t ++ past) = lastSet mode past
  | [], _ => rfl
  | op :: t, h => by
    have ht : NoSetup t := fun i l u d hm => h i l u d (List.mem_cons_of_mem _ hm)
    cases op with
    | setup i l u d => exact absurd (List.mem_cons_self ..) (h i l u d)
    | _ => simpa [lastSet] using lastSet_noSetup mode past ht

theorem roomOf_noSetup (mode : ℕ → Mode) (i : ℕ) (past : List ObjOp) : ∀ {t : List ObjOp}, NoSetup t →
    roomOf mode i (t ++ past) = roomOf mode i past
  | [], _ => rfl
  | op :: t, h => by
    have ht : NoSetup t := fun i l u d hm => h i l u d (List.mem_cons_of_mem _ hm)
    cases op with
    | setup i l u d => exact absurd (List.mem_cons_self ..) (h i l u d)
    | _ => simpa [roomOf] using roomOf_noSetup mode i past ht

theorem lastFile_filesOf (i : ℕ) : ∀ {ops : List ObjOp}, FilesOf i ops → lastFile ops = lastFileOf i ops
  | [], _ => rfl
  | op :: t, h => by
    have ht : FilesOf i t := fun k f hm => h k f (List.mem_cons_of_mem _ hm)
    cases op with
    | setPriors k f =>
      have := h k f (List.mem_cons_self ..)
      simp [lastFile, lastFileOf, this]
    | _ => simpa [lastFile, lastFileOf] using lastFile_filesOf i ht

end Mica
