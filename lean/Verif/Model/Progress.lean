import Verif.Model.Misc
import Verif.Model.ParNames
import Verif.Model.Sampler

/-!
# The progress bar

cdnest/progress-bar.c, and its use by the sampler (cdnest/dnest.c:215-221, 611-619, 1152-1158) and by the reconstructions
and decompositions (src/mc_line.c:282-286, 412-418, src/mc_mmap.c:345-349, 477-481, src/mc_vmap.c:721-725, 866-870,
src/line_decomp.c:204-208, 243-249, src/line_decomp_mmap.c:204-208, 243-249).  `int` has 32 bits; `float` arithmetic is
real arithmetic with every result rounded by a function `r`.  Characters of the bar are not NUL.
-/

namespace Mica

/-- `ProgressBar`, cdnest/progress-bar.h:19-30.  `showCount` is `none` while the memory has not been written. -/
structure ProgressBar where
  symbol : Char
  startSymbol : Char
  endSymbol : Char
  length : ℤ
  progress : ℤ
  total : ℤ
  format : List Char
  completedText : Option (List Char)
  showPercent : Bool
  showCount : Option Bool

/-- An argument of type `unsigned int` passed as `int` (gcc: modulo 2^32). -/
def asInt32 (n : ℕ) : ℤ := if n % 2 ^ 32 < 2 ^ 31 then (n % 2 ^ 32 : ℕ) else (n % 2 ^ 32 : ℕ) - 2 ^ 32

/-- `pb_init`, cdnest/progress-bar.c:26-36; `show_count` keeps what the memory holds. -/
def pbInit (mem : Option Bool) (symbol : Char) (length total : ℤ) : ProgressBar where
  symbol := symbol
  length := length
  progress := 0
  showPercent := false
  total := total
  startSymbol := '['
  endSymbol := ']'
  completedText := none
  format := "{bar} {percent} {count}".toList
  showCount := mem

/-- `strcat` and `sprintf(s + strlen(s), …)` into an array of `cap` characters; the final NUL needs room too. -/
def catTo (cap : ℕ) (s t : List Char) : Res (List Char) := if s.length + t.length < cap then .ok (s ++ t) else .ub

/-- The loop over the characters of the bar, cdnest/progress-bar.c:118-124, `k` characters still to come. -/
def barLoop (symbol : Char) (scaled : ℤ) : ℕ → ℕ → List Char → Res (List Char)
  | _, 0, s => .ok s
  | i, k + 1, s => do
    let s ← catTo 256 s [if (i : ℤ) < scaled then symbol else ' ']
    barLoop symbol scaled (i + 1) k s

/-- Conversion of a number to `int`: towards zero, undefined if it does not fit. -/
noncomputable def castInt32 (x : ℝ) : Res ℤ :=
  let z := if 0 ≤ x then ⌊x⌋ else ⌈x⌉
  if -2 ^ 31 ≤ z ∧ z < 2 ^ 31 then .ok z else .ub

/-- `(int)((float)pb->progress * pb->length / pb->total)`, cdnest/progress-bar.c:116.  Division by zero gives no number that
could be converted. -/
noncomputable def scaledProgress (r : ℝ → ℝ) (b : ProgressBar) : Res ℤ :=
  if r b.total = 0 then .ub else castInt32 (r (r (r b.progress * r b.length) / r b.total))

/-- `(pb->progress * 100) / pb->total`, cdnest/progress-bar.c:128. -/
def percentDone (b : ProgressBar) : Res ℤ :=
  if b.progress * 100 < -2 ^ 31 ∨ 2 ^ 31 ≤ b.progress * 100 then .ub
  else if b.total = 0 then .ub
  else .ok ((b.progress * 100).tdiv b.total)

/-- The loop over the format, cdnest/progress-bar.c:139-163. -/
def formatLoop (bar percent count : List Char) (showP showC : Bool) : List Char → List Char → Res (List Char)
  | [], out => .ok out
  | c :: f, out =>
    if "{bar}".toList.isPrefixOf (c :: f) then do
      let out ← catTo 512 out bar
      formatLoop bar percent count showP showC (f.drop 4) out
    else if "{percent}".toList.isPrefixOf (c :: f) then do
      let out ← if showP then catTo 512 out percent else pure out
      formatLoop bar percent count showP showC (f.drop 8) out
    else if "{count}".toList.isPrefixOf (c :: f) then do
      let out ← if showC then catTo 512 out count else pure out
      formatLoop bar percent count showP showC (f.drop 6) out
    else do
      let out ← catTo 512 out [c]
      formatLoop bar percent count showP showC f out
termination_by f => f.length
decreasing_by all_goals simp; try omega

/-- `pb_print`, cdnest/progress-bar.c:107-177: the text that is printed. -/
noncomputable def pbPrint (r : ℝ → ℝ) (b : ProgressBar) : Res (List Char) := do
  let bar ← catTo 256 [] [b.startSymbol]
  let scaled ← scaledProgress r b
  let bar ← barLoop b.symbol scaled 0 b.length.toNat bar
  let bar ← catTo 256 bar [b.endSymbol]
  let percent ← percentDone b
  let percentStr ← if b.showPercent then catTo 32 [] (fmtInt percent ++ ['%']) else pure []
  match b.showCount with
  | none => .ub
  | some sc => do
    let countStr ← if sc then catTo 32 [] (fmtInt b.progress ++ '/' :: fmtInt b.total) else pure []
    let result ← formatLoop bar percentStr countStr b.showPercent sc b.format []
    return result ++ (if percent < 100 then ['\x08', '\r']
      else match b.completedText with
        | some t => "\x1b[2K\r".toList ++ t ++ ['\n']
        | none => ['\n'])

/-- The bar of the sampler with `max_num_saves = m` after `k` saves: `pb_init`, `showPercent(pb, true)`,
`showCount(pb, true)`, `pb_update(pb, count_saves)` (cdnest/dnest.c:1154-1157, 219, 617). -/
def samplerBar (mem : Option Bool) (m k : ℕ) : ProgressBar :=
  { pbInit mem '#' 50 (asInt32 m) with showPercent := true, showCount := some true, progress := asInt32 k }

/-- The bars printed by one session of the sampler that starts with `n` saved samples (0, or those of the snapshot) and saves
`k` more: one with 0 at its start (cdnest/dnest.c:215-221) and one after every save (cdnest/dnest.c:607-618). -/
def sessionBars (mem : Option Bool) (m n k : ℕ) : List ProgressBar :=
  samplerBar mem m 0 :: (List.range k).map fun i => samplerBar mem m (n + (i + 1))

/-- The bar of a reconstruction or decomposition of `n` samples on `T` tasks after `k` samples of the root task
(src/mc_line.c:282-286, 416-417, and the places above). -/
def recBar (mem : Option Bool) (n T k : ℕ) : ProgressBar :=
  { pbInit mem '#' 50 (taskPs n T 0) with showPercent := true, showCount := some false, progress := k }

end Mica
