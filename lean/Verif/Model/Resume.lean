import Verif.Model.Restart
import Verif.Model.Postprocess

/-!
# What is on disk when a run is resumed

cdnest/dnest.c: `initialize_output_file` (885-915) opens the files of samples for appending when the run is a
restart; `dnest_run` flushes them every `num_saves` saves and writes a snapshot every `num_saves_restart` saves.
-/

namespace Mica

/-- `num_saves = (int)fmax(0.02*options.max_num_saves, 1.0)`, cdnest/dnest.c:1118, and after a restart
`(int)fmax(0.02*(options.max_num_saves-count_saves), 1.0)`, cdnest/dnest.c:2021.  `left` is the number of saves still
to be made when the run starts.  Simplification: real arithmetic. -/
def numSavesSync (left : ℕ) : ℕ := max (left / 50) 1

/-- `num_saves_restart`, cdnest/dnest.c:1119, 2022: the same with 0.2. -/
def numSavesSnap (left : ℕ) : ℕ := max (left / 5) 1

/-- Disk contents of a run from its start: rows of the sample file that are surely on disk, and the save count of the
last snapshot. -/
structure DiskSt where
  count : ℕ
  rows : ℕ
  snapshot : Option ℕ

/-- One save, cdnest/dnest.c:355-381, with `count_start = start`: a row is written to the buffer; every `num_saves`
saves the buffers are flushed and synchronised; every `num_saves_restart` saves a snapshot is written. -/
def diskSave (maxNumSaves start : ℕ) (s : DiskSt) : DiskSt :=
  let c := s.count + 1
  { count := c
    rows := if (c - start) % numSavesSync (maxNumSaves - start) = 0 then c else s.rows
    snapshot := if (c - start) % numSavesSnap (maxNumSaves - start) = 0 then some c else s.snapshot }

/-- `k` saves. -/
def diskSaves (maxNumSaves start : ℕ) : ℕ → DiskSt → DiskSt
  | 0, s => s
  | k + 1, s => diskSave maxNumSaves start (diskSaves maxNumSaves start k s)

/-- The samples the posterior is drawn from after a run that ended in state `s`: as many rows as saves were counted
(cdnest/dnest.c:404-406, cdnest/dnestpostprocess.c:74-82, 141-160), from the beginning of the file. -/
def usedRows {d : ℕ} (s : Sampler d) : Res (List (Particle d)) := readLines s.countSaves s.saved

end Mica
