import Verif.Proof.FlatCon
import Verif.Proof.Workspace

/-!
# C107: The likelihood of the continuum depends on nothing left in memory

The likelihood is computed piece by piece in shared arrays that still hold whatever earlier calls left there.
-/

namespace Mica

open Matrix

/-- **C107.** For every content of the work arrays the likelihood of the continuum is computed without touching an element
outside of an array or handing overlapping pieces to a library routine, and its value is the one given by the formula (in which
no memory occurs). -/
theorem C107_con (nq : ℕ) (ds : List DSet) (pm : ℕ → ℝ) (idx : ℕ → ℕ) (M : Mem) (h1 : 1 ≤ nq) (hc : ∀ d ∈ ds, nq ≤ d.con.n)
    (hf : HoldsFlux ds M) :
    fProbCon (memSizes nq ds) nq (nconMax ds) pm idx (ds.map DSet.con) M = .ok (probConSemi nq pm idx (ds.map DSet.con)) := by
  unfold fProbCon probConSemi
  have key : ∀ d ∈ ds, d.con.n ≤ nconMax ds ∧ nq ≤ memSizes nq ds (.sh .ipiv) ∧
      nconMax ds * nq + nconMax ds * nq + nconMax ds + nq + nq * nq + nconMax ds + nconMax ds + nconMax ds ≤
        memSizes nq ds (.sh .workspace) := by
    intro d hd
    have hq := hc d hd
    have hd' : (⟨d.con.n, d.line.map LC.n⟩ : DSize) ∈ ds.map fun d => (⟨d.con.n, d.line.map LC.n⟩ : DSize) :=
      List.mem_map.2 ⟨d, hd, rfl⟩
    obtain ⟨f1, -, -, -, -, -⟩ := maxima_fits hd'
    have f0 := ncon_le_nall (ds.map fun d => (⟨d.con.n, d.line.map LC.n⟩ : DSize))
    unfold nconMax memSizes
    dsimp only
    dsimp only at f1
    generalize maxima (ds.map fun d => (⟨d.con.n, d.line.map LC.n⟩ : DSize)) = m at *
    have e := ws_expand nq m
    have hns : nq ≤ wsCols nq m := Nat.le_mul_of_pos_left _ (by omega)
    have g3 : m.ncon * nq ≤ m.nall * wsCols nq m := Nat.mul_le_mul f0 hns
    have g4 : nq * nq ≤ wsCols nq m * wsCols nq m := Nat.mul_le_mul hns hns
    refine ⟨f1, ?_, ?_⟩
    · simp only [sharedSize]; split <;> omega
    · rw [e]; omega
  cases ds with
  | nil => rfl
  | cons d0 ds0 =>
    generalize hds : d0 :: ds0 = ds at *
    have hmem : d0 ∈ ds := by rw [← hds]; simp
    refine fConLoop_spec h1 (key d0 hmem).2.1 _ 0 0 M ?_ ?_
    · intro c hcm
      obtain ⟨d, hd, rfl⟩ := List.mem_map.1 hcm
      have := hc d hd
      exact ⟨by omega, conPtrs_laid (key d hd).1 (key d hd).2.2⟩
    · intro i c hi
      rw [List.getElem?_map] at hi
      obtain ⟨d, hd, rfl⟩ := Option.map_eq_some_iff.1 hi
      rw [Nat.zero_add]
      exact ⟨by simp [memSizes, hd], (hf i d hd).1⟩

/-- **C107.** Two calls with the same parameters give the same value, whatever was computed in between. -/
theorem C107_con_leftovers (nq : ℕ) (ds : List DSet) (pm : ℕ → ℝ) (idx : ℕ → ℕ) (M M' : Mem) (h1 : 1 ≤ nq)
    (hc : ∀ d ∈ ds, nq ≤ d.con.n) (hf : HoldsFlux ds M) (hk : ∀ k i, M' (.flux k) i = M (.flux k) i ∧ M' (.fall k) i = M (.fall k) i) :
    fProbCon (memSizes nq ds) nq (nconMax ds) pm idx (ds.map DSet.con) M =
      fProbCon (memSizes nq ds) nq (nconMax ds) pm idx (ds.map DSet.con) M' := by
  rw [C107_con nq ds pm idx M h1 hc hf, C107_con nq ds pm idx M' h1 hc]
  intro k d hd
  exact ⟨fun i hi => ((hk k i).1).trans ((hf k d hd).1 i hi), fun i hi => ((hk k i).2).trans ((hf k d hd).2 i hi)⟩

/-- Two data sets, the second one shorter: its matrices lie in what the first one left. -/
noncomputable def flatEx : List DSet :=
  [⟨⟨3, fun i => i, fun i => i + 1, fun _ => 1, 1⟩, [⟨2, fun i => i, fun i => i, fun _ => 1, 1⟩]⟩,
   ⟨⟨2, fun i => 2 * i, fun i => 5 - i, fun _ => 1, 1⟩, []⟩]

/-- The hypotheses are met by memory full of sevens apart from the fluxes. -/
example : (∀ d ∈ flatEx, 2 ≤ d.con.n) ∧ ∃ M : Mem, HoldsFlux flatEx M ∧ ∀ b x, M (.sh b) x = 7 := by
  refine ⟨by simp [flatEx], fun A x => match A with
    | .sh _ => 7
    | .flux k => (flatEx[k]?.map fun d => d.con.f x).getD 0
    | .fall k => (flatEx[k]?.map fun d => d.fall x).getD 0, ?_, fun _ _ => rfl⟩
  intro k d hd
  simp [hd]

end Mica
