import Verif.Model.PlotPanels
import Verif.Props.PlotFig

/-!
# C130: every panel shows the light curve it belongs to

`curves` has a list of light curves for each data set, the continuum first; `rows` is what `np.loadtxt` makes of the
file, all light curves one behind the other, and the header has their lengths.
-/

namespace Mica

variable {α : Type*}

/-- The numbers of points as the header gives them. -/
def headerOf (curves : List (List (List α))) : List (List ℕ) := curves.map fun s => s.map List.length

/-- All light curves one behind the other. -/
def rowsOf (curves : List (List (List α))) : List α := (curves.map List.flatten).flatten

theorem sliceOf_mid (a b c : List α) : sliceOf (a ++ b ++ c) a.length (a.length + b.length) = b := by
  unfold sliceOf
  rw [List.take_append_of_le_length (by simp), ← List.length_append, List.take_length, List.drop_left]

theorem headerOf_get (curves : List (List (List α))) (m : ℕ) :
    (headerOf curves).getD m [] = (curves.getD m []).map List.length := by
  unfold headerOf
  rw [List.getD_eq_getElem?_getD, List.getD_eq_getElem?_getD, List.getElem?_map]
  cases curves[m]? <;> rfl

theorem plotStart_eq (curves : List (List (List α))) (m : ℕ) (hm : m ≤ curves.length) :
    plotStart (headerOf curves) m = (rowsOf (curves.take m)).length := by
  induction m with
  | zero => rfl
  | succ m ih =>
    rw [plotStart, ih (by omega), headerOf_get, List.getD_eq_getElem _ _ (by omega : m < curves.length),
      List.take_add_one, List.getElem?_eq_getElem (by omega : m < curves.length)]
    simp only [rowsOf, List.map_append, Option.toList_some, List.map_cons, List.map_nil, List.flatten_append,
      List.flatten_cons, List.flatten_nil, List.append_nil, List.length_append]
    rw [add_comm, List.length_flatten (L := curves[m])]

theorem list_split_at {β : Type*} (l : List β) (m : ℕ) (hm : m < l.length) : l = l.take m ++ [l[m]] ++ l.drop (m + 1) := by
  rw [List.append_assoc, List.singleton_append, List.getElem_cons_drop, List.take_append_drop]

theorem flatten_at (l : List (List α)) (j : ℕ) (hj : j < l.length) :
    l.flatten = (l.take j).flatten ++ l[j] ++ (l.drop (j + 1)).flatten := by
  conv_lhs => rw [list_split_at l j hj]
  rw [List.flatten_append, List.flatten_append]
  simp

theorem slice_flatten (l : List (List α)) (j : ℕ) (hj : j < l.length) :
    sliceOf l.flatten ((l.take j).flatten).length (((l.take j).flatten).length + l[j].length) = l[j] := by
  rw [flatten_at l j hj, ← flatten_at l j hj]
  conv_lhs => arg 1; rw [flatten_at l j hj]
  exact sliceOf_mid _ _ _

/-- Where light curve `j` of data set `m` stands in the rows. -/
theorem rows_split (curves : List (List (List α))) (m j : ℕ) (hm : m < curves.length) (hj : j < curves[m].length) :
    ∃ rest, rowsOf curves = (rowsOf (curves.take m) ++ (curves[m].take j).flatten) ++ curves[m][j] ++ rest := by
  refine ⟨(curves[m].drop (j + 1)).flatten ++ rowsOf (curves.drop (m + 1)), ?_⟩
  have h1 : rowsOf curves = rowsOf (curves.take m) ++ curves[m].flatten ++ rowsOf (curves.drop (m + 1)) := by
    conv_lhs => rw [list_split_at curves m hm]
    unfold rowsOf
    rw [List.map_append, List.map_append, List.flatten_append, List.flatten_append]
    simp
  rw [h1, flatten_at curves[m] j hj]
  simp only [List.append_assoc]

/-- **C130.** In plotfig.py the panel of light curve `j` of data set `m` shows that light curve, for the data and, in the
same way, for the reconstruction. -/
theorem C130_panels (curves : List (List (List α))) (m j : ℕ) (hm : m < curves.length) (hj : j < curves[m].length) :
    (j = 0 → plotCon (rowsOf curves) (headerOf curves) m = curves[m][j]) ∧
    plotLine (rowsOf curves) (headerOf curves) m j = curves[m][j] := by
  obtain ⟨rest, h⟩ := rows_split curves m j hm hj
  have hs := plotStart_eq curves m hm.le
  have hg := headerOf_get curves m
  rw [List.getD_eq_getElem _ _ hm] at hg
  have hsum : ∀ i, (((headerOf curves).getD m []).take i).sum = ((curves[m].take i).flatten).length := by
    intro i
    rw [hg, ← List.map_take, List.length_flatten]
  have hsum1 : (((headerOf curves).getD m []).take (j + 1)).sum = ((curves[m].take j).flatten).length + curves[m][j].length := by
    rw [hsum, List.take_add_one, List.getElem?_eq_getElem hj, List.flatten_append, List.length_append]
    simp only [Option.toList_some, List.flatten_cons, List.flatten_nil, List.append_nil]
  constructor
  · rintro rfl
    unfold plotCon
    rw [h, hs, hg, List.getD_eq_getElem _ _ (by simpa using hj), List.getElem_map]
    simp only [List.take_zero, List.flatten_nil, List.append_nil]
    exact sliceOf_mid _ _ _
  · unfold plotLine
    rw [h, hs, hsum1, hsum, ← Nat.add_assoc, ← List.length_append]
    exact sliceOf_mid _ _ _

/-- **C130.** The trend drawn into the panel of light curve `j` of data set `m` has the coefficients of that light curve:
`coefs m j` is the list of its `nq` rows in the file. -/
theorem C130_trend (coefs : List (List (List α))) (nq : ℕ) (hq : ∀ s ∈ coefs, ∀ x ∈ s, x.length = nq) (ns : List (List ℕ))
    (hns : ns.map List.length = coefs.map List.length) (m j : ℕ) (hm : m < coefs.length) (hj : j < coefs[m].length) :
    plotTrend (rowsOf coefs) ns nq m j = coefs[m][j] := by
  obtain ⟨rest, h⟩ := rows_split coefs m j hm hj
  have hlen : ∀ s ∈ coefs, ∀ i, i ≤ s.length → ((s.take i).flatten).length = i * nq := by
    intro s hs i hi
    rw [List.length_flatten, List.map_take]
    have : s.map List.length = List.replicate s.length nq := by
      rw [List.eq_replicate_iff]
      exact ⟨by simp, fun n hn => by obtain ⟨x, hx, rfl⟩ := List.mem_map.1 hn; exact hq s hs x hx⟩
    rw [this, List.take_replicate, List.sum_replicate, smul_eq_mul, min_eq_left hi]
  have hst : ∀ i ≤ coefs.length, plotTrendStart ns nq i = (rowsOf (coefs.take i)).length := by
    intro i hi
    induction i with
    | zero => rfl
    | succ i ih =>
      have hi' : i < coefs.length := hi
      have e : (ns.getD i []).length = coefs[i].length := by
        have := congrArg (fun l => l[i]?) hns
        simp only [List.getElem?_map, List.getElem?_eq_getElem hi', Option.map_some] at this
        rw [List.getD_eq_getElem?_getD]
        cases hn : ns[i]? with
        | none => rw [hn] at this; cases this
        | some x => rw [hn] at this; simpa using this
      rw [plotTrendStart, ih hi'.le, List.take_add_one, List.getElem?_eq_getElem hi', e]
      simp only [rowsOf, List.map_append, Option.toList_some, List.map_cons, List.map_nil, List.flatten_append,
        List.flatten_cons, List.flatten_nil, List.append_nil, List.length_append]
      rw [← hlen coefs[i] (List.getElem_mem hi') coefs[i].length le_rfl, List.take_length]
  unfold plotTrend
  rw [h, hst m hm.le, ← hlen coefs[m] (List.getElem_mem hm) j hj.le, ← List.length_append,
    ← hq coefs[m] (List.getElem_mem hm) coefs[m][j] (List.getElem_mem hj)]
  exact sliceOf_mid _ _ _

/-! ## Continuum only -/

/-- The light curves the C program analyses in the mode `nmap`: the first of every data set and all others with points
(src/read.c:682-721). -/
def nmapCurves (curves : List (List (List α))) : List (List α) :=
  curves.flatMap fun s => s.take 1 ++ (s.drop 1).filter fun x => !x.isEmpty

theorem plotConStart_eq (ncon : List ℕ) (m : ℕ) (hm : m ≤ ncon.length) : plotConStart ncon m = (ncon.take m).sum := by
  induction m with
  | zero => rfl
  | succ m ih =>
    rw [plotConStart, ih (by omega), List.getD_eq_getElem _ _ (by omega : m < ncon.length), List.take_add_one,
      List.getElem?_eq_getElem (by omega : m < ncon.length), List.sum_append, add_comm]
    simp only [Option.toList_some, List.sum_singleton]

/-- **C130.** In the mode `nmap` panel `m` shows light curve `m` if all light curves have points.  Missing: headers with
zeros, see `C130_nmap_fails`. -/
theorem C130_nmap_partial (curves : List (List (List α))) (hne : ∀ s ∈ curves, ∀ x ∈ s, x ≠ []) (m : ℕ)
    (hm : m < (nmapCurves curves).length) :
    plotOnly (rowsOf curves) (headerOf curves) m = (nmapCurves curves)[m] := by
  have e : nmapCurves curves = curves.flatten := by
    unfold nmapCurves
    rw [List.flatten_eq_flatMap]
    refine List.flatMap_congr fun s hs => ?_
    rw [List.filter_eq_self.2]
    · exact List.take_append_drop 1 s
    · intro x hx
      have := hne s hs x (List.mem_of_mem_drop hx)
      simpa [List.isEmpty_iff] using this
  have hrow : rowsOf curves = curves.flatten.flatten := by
    unfold rowsOf
    exact List.flatten_flatten.symm
  have hh : (headerOf curves).flatten = curves.flatten.map List.length := by
    unfold headerOf
    rw [← List.map_flatten]
  have hm' : m < curves.flatten.length := by rw [← e]; exact hm
  have hs : plotConStart (headerOf curves).flatten m = ((curves.flatten.take m).flatten).length := by
    rw [plotConStart_eq _ _ (by rw [hh, List.length_map]; exact hm'.le), hh, ← List.map_take, List.length_flatten]
  have hg : (headerOf curves).flatten.getD m 0 = (curves.flatten[m]).length := by
    rw [hh, List.getD_eq_getElem _ _ (by rw [List.length_map]; exact hm'), List.getElem_map]
  unfold plotOnly
  simp only [e]
  rw [hs, hg, hrow]
  exact slice_flatten _ m hm'

/-- **C130, negation.** With a line without points in a data set other than the last, a later panel is empty although its
light curve is not. -/
theorem C130_nmap_fails (a b : α) (s : List α) :
    (nmapCurves [[[a], []], [b :: s]])[1]? = some (b :: s) ∧
      plotOnly (rowsOf [[[a], []], [b :: s]]) (headerOf [[[a], []], [b :: s]]) 1 = [] := by
  constructor
  · rfl
  · simp [plotOnly, headerOf, rowsOf, plotConStart, sliceOf]

/-! ## plotdecomp.py -/

theorem decompStart_eq (n : List ℕ) (j : ℕ) (hj : j < n.length) : decompStart n j = (n.take j).sum := by
  induction j with
  | zero => rfl
  | succ j ih =>
    have h1 : j < n.length := by omega
    rw [List.take_add_one, List.getElem?_eq_getElem h1, List.sum_append]
    cases j with
    | zero =>
      rw [decompStart, List.getD_eq_getElem _ _ h1]
      simp
    | succ j =>
      rw [decompStart, ih h1, List.getD_eq_getElem _ _ h1]
      simp

/-- **C130.** plotdecomp.py with one data set: every panel shows its light curve.  Missing: more data sets, for which the
script raises an exception (`C130_decomp_sets`). -/
theorem C130_decomp_partial (s : List (List α)) (j : ℕ) (hj : j < s.length) (ng : ℕ) :
    decompIndx ng 1 = some [3] ∧ (j = 0 → decompCon (rowsOf [s]) (headerOf [s]) 0 = s[j]) ∧
      decompLinePanel (rowsOf [s]) (headerOf [s]) 0 j = s[j] := by
  have hh : (headerOf [s]).getD 0 [] = s.map List.length := rfl
  have hr : rowsOf [s] = s.flatten := by simp [rowsOf]
  have key := slice_flatten s j hj
  refine ⟨rfl, ?_, ?_⟩
  · rintro rfl
    unfold decompCon
    rw [hr, hh, List.getD_eq_getElem _ _ (by simpa using hj), List.getElem_map]
    simpa using key
  · unfold decompLinePanel
    rw [hr, hh, decompStart_eq _ _ (by simpa using hj), List.getD_eq_getElem _ _ (by simpa using hj), List.getElem_map,
      ← List.map_take, ← List.length_flatten]
    exact key

/-- **C130, negation.** With two or more data sets plotdecomp.py always raises an exception. -/
theorem C130_decomp_sets (ng nd : ℕ) (h : 2 ≤ nd) : decompIndx ng nd = none := by
  obtain ⟨n, rfl⟩ : ∃ n, nd = n + 2 := ⟨nd - 2, by omega⟩
  rfl

/-- **C130, negation.** With negative responses the mean drawn for line `j` (row `j` of the file, one coefficient for each
light curve) is the right one for the first line only. -/
theorem C130_decomp_mean (rows : List α) (hnd : rows.Nodup) (j : ℕ) (hj : j < rows.length) :
    decompMean rows j = rows[j]? ↔ j = 1 := by
  unfold decompMean
  rw [Nat.zero_add]
  constructor
  · intro h
    rw [List.getElem?_eq_getElem hj] at h
    obtain ⟨h1, h2⟩ := List.getElem?_eq_some_iff.1 h
    exact ((hnd.getElem_inj_iff).1 h2).symm
  · rintro rfl; rfl

theorem decompLoop_eq (tau : List ℝ) (row : ℕ → ℝ) (pmap neg : Bool) (base ng j : ℕ) (ts : List ℕ) (k : ℕ) (s : PlotTran)
    (h : pmap = false ∨ 1 ≤ k ∨ ∀ tt ∈ ts, tt < 3) :
    decompLoop tau row pmap neg base ng j k ts s = plotLoop tau row pmap neg base ng j k ts s := by
  induction ts generalizing k s with
  | nil => rfl
  | cons tt ts ih =>
    have hst : decompStep tau row pmap neg base ng j k tt s = plotStep tau row pmap neg base ng j k tt s := by
      unfold decompStep
      rw [if_neg]
      rintro ⟨h1, h2, h3⟩
      rcases h with h | h | h
      · rw [h1] at h; cases h
      · omega
      · have := h tt (by simp); omega
    rw [decompLoop, plotLoop, hst]
    cases plotStep tau row pmap neg base ng j k tt s with
    | none => rfl
    | some s' => exact ih (k + 1) s' (Or.inr (Or.inl (by omega)))

/-- **C130.** The transfer function of plotdecomp.py is that of plotfig.py, hence that of the fitted model where C128 says so.
Missing: exponential functions in photometric mode, see `C130_decomp_exp`. -/
theorem C130_decomp_tran_partial (tau : List ℝ) (row : ℕ → ℝ) (pmap neg : Bool) (base ng j : ℕ) (typetf : List ℕ)
    (h : pmap = false ∨ ∀ tt ∈ typetf, tt < 3) :
    decompTran tau row pmap neg base ng j typetf = plotTran tau row pmap neg base ng j typetf := by
  unfold decompTran plotTran
  rw [decompLoop_eq _ _ _ _ _ _ _ _ _ _ (h.imp_right Or.inr)]

/-- **C130, negation.** An exponential function in photometric mode: plotdecomp.py has another factor `t - cen`; the fitted
transfer function of lag 1, width 1 and amplitude 1 is `exp(-t)`, the script gives `t exp(-t)`. -/
theorem C130_decomp_exp (t : ℝ) (ht : 0 < t) :
    decompTran [t] (fun i => if i = 5 then 1 else 0) true false 3 1 1 [3] = some [t * Real.exp (-t)] ∧
      tfDens .exp 1 1 t = Real.exp (-t) := by
  constructor
  · unfold decompTran
    have e : decompStep [t] (fun i => if i = 5 then 1 else 0) true false 3 1 1 0 3 ⟨List.replicate [t].length 0, none⟩ =
        some ⟨[t * Real.exp (-t)], some (plotWhere [t] 0)⟩ := by
      unfold decompStep
      rw [if_pos ⟨rfl, rfl, le_rfl⟩]
      have hc : ∀ p, plotCol 3 1 1 0 p = 4 + p := fun p => by simp [plotCol]
      have hA : plotAmp (fun i => if i = 5 then (1 : ℝ) else 0) true false 3 1 1 0 = 1 := by simp [plotAmp, hc]
      simp only [hc, hA]
      norm_num
      rw [show [(0 : ℝ)] = [t].map (fun _ => 0) from rfl, plotAddAt_map]
      simp [ht.le]
    rw [decompLoop, e]
    rfl
  · norm_num [tfDens, ht]

/-! ### Examples -/

example : plotLine (rowsOf [[[1, 2], [3]], [[4], [5, 6, 7], [8]]]) (headerOf [[[1, 2], [3]], [[4], [5, 6, 7], [8]]]) 1 1 = [5, 6, 7] :=
  (C130_panels [[[1, 2], [3]], [[4], [5, 6, 7], [8]]] 1 1 (by decide) (by decide)).2

example : plotTrend (rowsOf [[[1, 2], [3, 4]], [[5, 6], [7, 8], [9, 10]]]) [[30, 40], [50, 60, 70]] 2 1 1 = [7, 8] :=
  C130_trend [[[1, 2], [3, 4]], [[5, 6], [7, 8], [9, 10]]] 2 (by decide) _ rfl 1 1 (by decide) (by decide)

example : plotOnly (rowsOf [[[1, 2], [3]], [[4]]]) (headerOf [[[1, 2], [3]], [[4]]]) 2 = [4] :=
  C130_nmap_partial [[[1, 2], [3]], [[4]]] (by decide) 2 (by decide)

example : decompMean [10, 20, 30] 2 ≠ [10, 20, 30][2]? := fun h => by
  have := (C130_decomp_mean [10, 20, 30] (by decide) 2 (by decide)).1 h
  omega

example (row : ℕ → ℝ) (tau : List ℝ) (c : LineCfg) (hc : c = lineCfgEx 0 0 [2] false) :
    decompTran tau row false false (plotBase c 0 0) 3 1 [2, 2, 2] =
      some (tau.map (transfer (fitted c false (fun k => plotType ([2, 2, 2].getD k 0)) row 0) 0)) := by
  subst hc
  rw [C130_decomp_tran_partial _ _ _ _ _ _ _ _ (Or.inl rfl)]
  exact C128_transfer_partial (c := lineCfgEx 0 0 [2] false) (fv := 0) (m := 0) (j := 0) rfl (by decide) false [2, 2, 2] rfl row tau
    (fun t _ k hk h3 => by
      exfalso
      have : k < 3 := hk
      interval_cases k <;> simp at h3)

end Mica
