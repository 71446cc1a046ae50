import Verif.Model.RunPlan
import Std.Data.String.ToNat

/-!
# Names of output files differ
-/

namespace Mica

theorem dec_inj {m n : ℕ} (h : dec m = dec n) : m = n := by
  unfold dec at h
  exact Nat.repr_injective (String.toList_inj.1 h)

theorem dec_no {n : ℕ} : '_' ∉ dec n := by
  intro h
  have : '_' ∈ Nat.toDigits 10 n := by
    rw [← Nat.toList_repr]; exact h
  have := Nat.isDigit_of_mem_toDigits (by decide) (by decide) this
  revert this; decide

theorem split_at {a b x y : CStr} (ha : '_' ∉ a) (hb : '_' ∉ b) (h : a ++ '_' :: x = b ++ '_' :: y) : a = b ∧ x = y := by
  induction a generalizing b with
  | nil =>
    cases b with
    | nil => simpa using h
    | cons c b => simp at h; exact absurd (by rw [h.1]; simp) hb
  | cons c a ih =>
    cases b with
    | nil => simp at h; exact absurd (by rw [h.1]; simp) ha
    | cons d b =>
      simp at h
      obtain ⟨h1, h2⟩ := ih (fun h => ha (by simp [h])) (fun h => hb (by simp [h])) h.2
      exact ⟨by rw [h.1, h1], h2⟩

/-- The part of the name up to the first number. -/
def OutFile.head : OutFile → CStr
  | .normalization => "normalization.txt".toList
  | .pcon => "pcon.txt".toList
  | .trendCon => "trend_con.txt".toList
  | .evidenceCon => "evidence_con.txt".toList
  | .evidence => "evidence.txt".toList
  | .sampler none f => f.base.drop 1 ++ ".txt".toList
  | .sampler (some _) f => f.base.drop 1 ++ "1d.txt".toList ++ ['_']
  | .snapshotCon _ => "restart_dnest.txt".toList ++ ['_']
  | .snapshotLine _ _ => "restart_dnest1d.txt".toList ++ ['_']
  | .pall _ => "pall.txt".toList ++ ['_']
  | .trend _ => "trend.txt".toList ++ ['_']
  | .names _ => "para_names_line.txt".toList ++ ['_']
  | .pline _ _ => "pline.txt".toList ++ ['_']
  | .status false => "status.txt".toList
  | .status true => "status1d.txt".toList
  | .options => "DNEST_OPTIONS".toList

/-- What follows. -/
def OutFile.tail : OutFile → CStr
  | .sampler (some n) _ => dec n
  | .snapshotCon k => dec k
  | .snapshotLine none k => dec k
  | .snapshotLine (some n) k => dec n ++ '_' :: dec k
  | .pall n => dec n
  | .trend n => dec n
  | .names n => dec n
  | .pline n c => dec n ++ '_' :: ("comp".toList ++ dec c)
  | _ => []

theorem join (a t : CStr) : a ++ '_' :: t = (a ++ ['_']) ++ t := by simp

theorem name_eq (x : OutFile) : x.name = x.head ++ x.tail := by
  cases x with
  | sampler st f =>
    cases st with
    | none => exact (List.append_nil _).symm
    | some n => exact join _ _
  | snapshotLine o k =>
    cases o with
    | none => exact join _ _
    | some n => exact join _ _
  | status b =>
    cases b with
    | false => exact (List.append_nil _).symm
    | true => exact (List.append_nil _).symm
  | snapshotCon k => exact join _ _
  | pall k => exact join _ _
  | trend k => exact join _ _
  | names k => exact join _ _
  | pline k c => exact join _ _
  | _ => exact (List.append_nil _).symm

/-- One file of every kind: the same heads. -/
def OutFile.std : OutFile → OutFile
  | .sampler (some _) f => .sampler (some 0) f
  | .snapshotCon _ => .snapshotCon 0
  | .snapshotLine _ _ => .snapshotLine none 0
  | .pall _ => .pall 0
  | .trend _ => .trend 0
  | .names _ => .names 0
  | .pline _ _ => .pline 0 0
  | x => x

def OutFile.stds : List OutFile :=
  [.normalization, .pcon, .trendCon, .evidenceCon, .evidence, .snapshotCon 0, .snapshotLine none 0, .pall 0, .trend 0,
    .names 0, .pline 0 0, .status false, .status true, .options] ++
  SFile.all.map (.sampler none) ++ SFile.all.map (.sampler (some 0))

theorem std_mem (x : OutFile) : x.std ∈ OutFile.stds := by
  cases x with
  | sampler st f => cases st <;> cases f <;> simp [OutFile.std, OutFile.stds, SFile.all]
  | snapshotLine o k => cases o <;> simp [OutFile.std, OutFile.stds]
  | status b => cases b <;> simp [OutFile.std, OutFile.stds]
  | _ => simp [OutFile.std, OutFile.stds]

theorem std_head (x : OutFile) : x.std.head = x.head := by
  cases x with
  | sampler st f => cases st <;> rfl
  | status b => cases b <;> rfl
  | _ => rfl

theorem heads_free : ∀ x ∈ OutFile.stds, ∀ y ∈ OutFile.stds, x.head.isPrefixOf y.head = true → x = y := by
  decide +kernel

theorem same_std {x y : OutFile} (h : x.name = y.name) : x.std = y.std := by
  rw [name_eq, name_eq] at h
  have hx : x.head <+: y.head ++ y.tail := ⟨_, h⟩
  rcases List.prefix_or_prefix_of_prefix hx (List.prefix_append _ _) with h | h
  · exact heads_free _ (std_mem x) _ (std_mem y) (by rw [std_head, std_head]; simpa using h)
  · exact (heads_free _ (std_mem y) _ (std_mem x) (by rw [std_head, std_head]; simpa using h)).symm

/-- The two sorts of snapshots of line stages, with and without number, are not written by the same run. -/
def OutFile.fromMode (numbered : Bool) : OutFile → Prop
  | .snapshotLine o _ => o.isSome = numbered
  | _ => True

theorem name_inj {x y : OutFile} {b : Bool} (hx : x.fromMode b) (hy : y.fromMode b) (h : x.name = y.name) : x = y := by
  have hs := same_std h
  have ht : x.tail = y.tail := by
    rw [name_eq, name_eq, ← std_head x, ← std_head y, hs] at h
    exact List.append_cancel_left h
  cases x with
  | sampler st f =>
    cases y with
    | sampler st' f' =>
      cases st <;> cases st' <;> simp [OutFile.std] at hs
      · rw [hs]
      · simp only [OutFile.tail] at ht
        rw [hs, dec_inj ht]
    | status b => cases b <;> cases st <;> simp [OutFile.std] at hs
    | _ => cases st <;> simp [OutFile.std] at hs
  | snapshotCon k =>
    cases y <;> simp [OutFile.std] at hs
    · rename_i st _; cases st <;> simp at hs
    · simp only [OutFile.tail] at ht; rw [dec_inj ht]
  | snapshotLine o k =>
    cases y <;> simp [OutFile.std] at hs
    · rename_i st _; cases st <;> simp at hs
    · rename_i o' k'
      cases b <;> cases o <;> cases o' <;> simp [OutFile.fromMode] at hx hy
      · simp only [OutFile.tail] at ht; rw [dec_inj ht]
      · simp only [OutFile.tail] at ht
        obtain ⟨h1, h2⟩ := split_at dec_no dec_no ht
        rw [dec_inj h1, dec_inj h2]
  | pall k =>
    cases y <;> simp [OutFile.std] at hs
    · rename_i st _; cases st <;> simp at hs
    · simp only [OutFile.tail] at ht; rw [dec_inj ht]
  | trend k =>
    cases y <;> simp [OutFile.std] at hs
    · rename_i st _; cases st <;> simp at hs
    · simp only [OutFile.tail] at ht; rw [dec_inj ht]
  | names k =>
    cases y <;> simp [OutFile.std] at hs
    · rename_i st _; cases st <;> simp at hs
    · simp only [OutFile.tail] at ht; rw [dec_inj ht]
  | pline n c =>
    cases y <;> simp [OutFile.std] at hs
    · rename_i st _; cases st <;> simp at hs
    · simp only [OutFile.tail] at ht
      obtain ⟨h1, h2⟩ := split_at dec_no dec_no ht
      rw [dec_inj h1, dec_inj (List.append_cancel_left h2)]
  | _ =>
    cases y <;> simp [OutFile.std] at hs <;> first
      | rfl
      | (rw [hs]; done)
      | (rename_i st _; cases st <;> simp at hs)

end Mica
