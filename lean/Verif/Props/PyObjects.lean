import Verif.Proof.PyObjects

/-!
# C153: objects of the Python interface do not disturb one another

Claim: a run of an object analyses the data with the settings of the last `setup` of that object and the priors of the last
`set_priors` of that object; a call that raises an exception changes nothing; priors from a file are used with a single number of
components only.  False: the C code has one set of settings and one prior file for the whole process.
-/

namespace Mica

/-- Exactly what a run uses, for every session: the settings of the last `setup` that was not refused and the file of the last
`set_priors`, refused or not, of whichever objects.  If the last `setup` of the object itself made too little room for the
evidences of these settings, memory that is not the array's is written. -/
theorem C153_exact (mode : ℕ → Mode) (ops : List ObjOp) (s : PyProc) (e : List ObjEv)
    (h : objSession mode ops {} = .ok (s, e)) (i : ℕ) :
    objSession mode (ops ++ [.run i]) {} =
      let set := (lastSet mode ops.reverse).getD ⟨0, 0, []⟩
      if evidences (mode i) set ≤ roomOf mode i ops.reverse then
        .ok (s, e ++ [.ran i set (if mode i = .nmap then none else lastFile ops.reverse)])
      else .ub := by
  have inv := objInv_of h
  have hn : ∀ t, logzNeed (mode i) t = evidences (mode i) t := by
    intro t; cases hm : mode i <;> simp [logzNeed, evidences]
  rw [objSession_snoc, h, Res.ok_bind]
  simp only [objStep, hn, inv.set, inv.cap i, inv.prior]
  split <;> simp

/-- Two objects, the first run after the second was set up. -/
example : (objSession (fun _ => .gmodel) [.setup 0 1 3 "a".toList, .setup 1 2 2 "b".toList, .run 0] {} >>= fun x => .ok x.2) =
    .ok [.ran 0 ⟨2, 1, "b".toList⟩ none] := rfl

/-- The claim holds for an object if no object was set up since its own last `setup`, files of priors were given to it alone, and no
exception was raised.  What is missing: other uses, see below. -/
theorem C153_own_partial (mode : ℕ → Mode) (i low upp : ℕ) (data : CStr) (a b : List ObjOp) (s : PyProc) (e : List ObjEv)
    (h : objSession mode (a ++ .setup i low upp data :: b) {} = .ok (s, e)) (hle : low ≤ upp)
    (hb : NoSetup b) (hf : FilesOf i (a ++ b)) (he : ∀ k, .raised k ∉ e) :
    objSession mode (a ++ .setup i low upp data :: b ++ [.run i]) {} =
      .ok (s, e ++ [.ran i (askedSet (mode i) low upp data)
        (if mode i = .nmap then none else lastFileOf i (b.reverse ++ a.reverse))]) := by
  have hrev : (a ++ .setup i low upp data :: b).reverse = b.reverse ++ (.setup i low upp data :: a.reverse) := by simp
  have hb' : NoSetup b.reverse := fun k l u d hm => hb k l u d (List.mem_reverse.1 hm)
  -- the call of `setup` was accepted
  have hacc : ¬ (mode i ≠ .pmap ∧ mode i ≠ .nmap ∧ low < upp ∧ gaveFile i a.reverse = true) := by
    intro hc
    rw [objSession_append] at h
    obtain ⟨⟨s1, e1⟩, h1, h2⟩ := Res.bind_eq_ok.1 h
    have hr := (setupRaises_iff (objInv_of h1) i low upp data).2 hc
    simp only [objSession, objStep, if_pos hr, Res.ok_bind, Res.bind_eq_ok] at h2
    obtain ⟨y, ⟨z, -, hz⟩, h4⟩ := h2
    obtain rfl := Res.ok.inj hz
    apply he i
    rw [← (Prod.mk.inj (Res.ok.inj h4)).2]
    simp
  have hset : lastSet mode (a ++ .setup i low upp data :: b).reverse = some (askedSet (mode i) low upp data) := by
    rw [hrev, lastSet_noSetup mode _ hb', lastSet, if_neg hacc]
  have hroom : roomOf mode i (a ++ .setup i low upp data :: b).reverse = (askedSet (mode i) low upp data).diff := by
    rw [hrev, roomOf_noSetup mode i _ hb', roomOf, if_pos rfl]
  have hfile : lastFile (a ++ .setup i low upp data :: b).reverse = lastFileOf i (b.reverse ++ a.reverse) := by
    have hdrop : ∀ t : List ObjOp, lastFile (t ++ (.setup i low upp data :: a.reverse)) = lastFile (t ++ a.reverse) := by
      intro t
      induction t with
      | nil => rfl
      | cons op t ih => cases op <;> simp [lastFile, ih]
    rw [hrev, hdrop, lastFile_filesOf]
    intro k f hm
    exact hf k f (by simp at hm ⊢; tauto)
  have hev : evidences (mode i) (askedSet (mode i) low upp data) ≤ (askedSet (mode i) low upp data).diff := by
    cases hm : mode i <;> simp [evidences, askedSet]
    omega
  rw [C153_exact mode _ s e h i]
  simp only [hset, hroom, hfile, Option.getD_some]
  rw [if_pos hev]

/-- Another object may be used in between, a file of priors given before and after `setup`. -/
example : (objSession (fun i => if i = 0 then .vmap else .nmap)
    ([.setup 1 1 1 "b".toList, .run 1, .setPriors 0 "p".toList] ++ .setup 0 3 3 "a".toList :: [.setPriors 0 "q".toList] ++
      [.run 0]) {} >>= fun x => .ok x.2) =
    .ok [.ran 1 ⟨1, 0, "b".toList⟩ none, .ran 0 ⟨3, 1, "a".toList⟩ (some "q".toList)] := rfl

/-- An object that is run after another one was set up analyses the data of the other one, with the settings of the other one. -/
theorem C153_other_settings (i j : ℕ) (hij : i ≠ j) (low upp low' upp' : ℕ) (data data' : CStr)
    (hn : upp' + 1 - low' ≤ upp + 1 - low) :
    ∃ s, objSession (fun _ => .gmodel) [.setup i low upp data, .setup j low' upp' data', .run i] {} =
      .ok (s, [.ran i ⟨low', upp' + 1 - low', data'⟩ none]) := by
  simp [objSession, objStep, setupRaises, ProcObj.setup, PyProc.put, logzNeed, hij, hij.symm, hn]

example : (2 : ℕ) + 1 - 1 ≤ 5 + 1 - 1 := by decide

/-- If the other one has more numbers of components, the evidences are written past the end of the array. -/
theorem C153_overrun (i j : ℕ) (hij : i ≠ j) (low upp low' upp' : ℕ) (data data' : CStr)
    (hn : upp + 1 - low < upp' + 1 - low') :
    objSession (fun _ => .gmodel) [.setup i low upp data, .setup j low' upp' data', .run i] {} = .ub := by
  have hn' : ¬ upp' + 1 ≤ upp + 1 - low + low' := by omega
  simp [objSession, objStep, setupRaises, ProcObj.setup, PyProc.put, logzNeed, hij, hij.symm, hn']

example : (1 : ℕ) + 1 - 1 < 3 + 1 - 1 := by decide

/-- The priors given to one object are used by every other one from then on, also with several numbers of components. -/
theorem C153_other_prior (i j : ℕ) (hij : i ≠ j) (n low upp : ℕ) (data data' file : CStr) (hf : file.length < 256) :
    ∃ s, objSession (fun _ => .gmodel)
        [.setup i n n data, .setPriors i file, .run i, .setup j low upp data', .run j] {} =
      .ok (s, [.ran i ⟨n, 1, data⟩ (some file), .ran j ⟨low, upp + 1 - low, data'⟩ (some file)]) := by
  have hji : j ≠ i := fun h => hij h.symm
  simp [objSession, objStep, setupRaises, ProcObj.setup, PyProc.put, logzNeed, hji, hf]

/-- A call of `set_priors` that raises has done its work all the same: the run that follows uses the file with several numbers of
components. -/
theorem C153_refused (i low upp : ℕ) (h : low < upp) (data file : CStr) (hf : file.length < 256) :
    ∃ s, objSession (fun _ => .gmodel) [.setup i low upp data, .setPriors i file, .run i] {} =
      .ok (s, [.raised i, .ran i ⟨low, upp + 1 - low, data⟩ (some file)]) := by
  have : 1 < upp + 1 - low := by omega
  simp [objSession, objStep, setupRaises, ProcObj.setup, PyProc.put, logzNeed, hf, this]

example : (1 : ℕ) < 2 ∧ "prior.txt".toList.length < 256 := by decide

/-- And it cannot be taken back: once `set_priors` was called on an object, whatever is done afterwards, every `setup` of that object
with several numbers of components raises. -/
theorem C153_refused_stays (mode : ℕ → Mode) (i : ℕ) (hm : mode i ≠ .pmap) (hm' : mode i ≠ .nmap) (ops : List ObjOp) (file : CStr)
    (hin : .setPriors i file ∈ ops) (s : PyProc) (e : List ObjEv) (h : objSession mode ops {} = .ok (s, e)) (low upp : ℕ)
    (hlt : low < upp) (data : CStr) :
    ∃ s', objSession mode (ops ++ [.setup i low upp data]) {} = .ok (s', e ++ [.raised i]) := by
  have hg : ∀ l : List ObjOp, ObjOp.setPriors i file ∈ l → gaveFile i l = true := by
    intro l hl
    induction l with
    | nil => simp at hl
    | cons op l ih =>
      cases op <;> simp [gaveFile] at hl ⊢
      · exact ih hl
      · rcases hl with ⟨rfl, _⟩ | hl
        · exact Or.inl rfl
        · exact Or.inr (ih hl)
      · exact ih hl
  have hr := (setupRaises_iff (objInv_of h) i low upp data).2 ⟨hm, hm', hlt, hg _ (List.mem_reverse.2 hin)⟩
  rw [objSession_snoc, h, Res.ok_bind]
  simp [objStep, hr]

/-- After an accepted call. -/
example : (objSession (fun _ => .mmap)
    [.setup 0 1 1 "a".toList, .setPriors 0 "p".toList, .run 0, .setup 0 1 2 "a".toList] {} >>= fun x => .ok x.2) =
    .ok [.ran 0 ⟨1, 1, "a".toList⟩ (some "p".toList), .raised 0] := rfl

/-- A name of 256 characters or more overruns `prior_file`. -/
theorem C153_long_name (mode : ℕ → Mode) (ops : List ObjOp) (s : PyProc) (e : List ObjEv)
    (h : objSession mode ops {} = .ok (s, e)) (i : ℕ) (file : CStr) (hf : 256 ≤ file.length) :
    objSession mode (ops ++ [.setPriors i file]) {} = .ub := by
  rw [objSession_snoc, h, Res.ok_bind]
  simp [objStep, Nat.not_lt.2 hf]

example : 256 ≤ (List.replicate 300 'a').length := by rw [List.length_replicate]; decide

end Mica
