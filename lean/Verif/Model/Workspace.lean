import Mathlib.Data.Nat.Notation
/-
The shared work arrays: how large they are allocated and which elements each computation touches.

Every function below lists, in source order, the rectangular pieces of the arrays that a statement (or a
library call) reads or writes: through which pointer, how many rows, how far apart, how many columns.
Simplifications, common to all of them: element counts are natural numbers (no 32-bit overflow), a library
routine touches exactly the matrices its arguments describe, and private temporaries inside LAPACK are not
counted.  Reads of the input light curves themselves are not listed.
-/

namespace Mica

/-- The numbers of points of one data set (`dataset[i].con.n`, `dataset[i].line[j].n`). -/
structure DSize where
  con : ℕ
  lines : List ℕ

/-- `dataset[i].nlset`. -/
def DSize.nl (d : DSize) : ℕ := d.lines.length

/-- `alldata[i].n`, src/read.c 906-912. -/
def DSize.all (d : DSize) : ℕ := d.con + d.lines.sum

/-- The running maxima of src/read.c 932-954. -/
structure Maxima where
  ncon : ℕ
  nline : ℕ
  nall : ℕ
  nlset : ℕ
  nrec : ℕ

/-- One pass of the loop of src/read.c 937-954.  `nrec` uses the maxima over the data sets read so far. -/
def Maxima.step (m : Maxima) (d : DSize) : Maxima :=
  let ncon := if m.ncon < d.con then d.con else m.ncon
  let nall := if m.nall < d.all then d.all else m.nall
  let nlset := if m.nlset < d.nl then d.nl else m.nlset
  let nline := d.lines.foldl (fun a n => if a < n then n else a) m.nline
  ⟨ncon, nline, nall, nlset, max m.nrec (max ncon nline * (1 + d.nl))⟩

/-- src/read.c 932-954, followed by `nrec_max *= nscale` with `nscale = 3` (src/init.c 135-136). -/
def maxima (ds : List DSize) : Maxima :=
  let m := ds.foldl Maxima.step ⟨0, 0, 0, 0, 0⟩
  { m with nrec := m.nrec * 3 }

/-- The arrays: the shared ones of src/init.c 281-304 and src/mc_line.c 2371-2372, and those local to a call. -/
inductive Buf where
  | workspace | inv | ipiv | psmat | pcmat | usmat | usmatT | asmat | smatLC | smatLL
  | pe1 | pe2 | pe3 | pe4 | fall | feall | yqall
  deriving DecidableEq

/-- A rectangle of elements reached through one pointer.  `area` numbers the pointers into the same array in
the order in which the code lays them out.  `per` is 1 for doubles and 2 for the `int` array that shares the
workspace: two of its elements fit into one double. -/
structure Acc where
  buf : Buf
  area : ℕ
  ptr : ℕ
  rows : ℕ
  stride : ℕ
  cols : ℕ
  per : ℕ := 1

/-- Element `x` of the array is touched by the access. -/
def Acc.touches (a : Acc) (x : ℕ) : Prop :=
  ∃ i < a.rows, ∃ j < a.cols, x = a.ptr + (i * a.stride + j) / a.per

/-- `r` by `c` block stored without gaps. -/
def Acc.mat (b : Buf) (area ptr r c : ℕ) : Acc := ⟨b, area, ptr, r, c, c, 1⟩

/-- `n` consecutive elements. -/
def Acc.vec (b : Buf) (area ptr n : ℕ) : Acc := ⟨b, area, ptr, 1, n, n, 1⟩

/-- `n` consecutive `int`s inside an array of doubles. -/
def Acc.ints (b : Buf) (area ptr n : ℕ) : Acc := ⟨b, area, ptr, 1, n, n, 2⟩

/-- `ns` of src/init.c 300. -/
def wsCols (nq : ℕ) (m : Maxima) : ℕ := (1 + m.nlset) * nq

/-- Numbers of elements of the shared arrays (src/init.c 285-304, src/mc_line.c 2371-2372). -/
def sharedSize (nq : ℕ) (m : Maxima) : Buf → ℕ
  | .workspace => 5 * m.nall + (2 * m.nall + 2 * m.nrec + 1 + wsCols nq m) * wsCols nq m
  | .inv => 3 * m.nall * m.nall
  | .ipiv => if m.nrec < m.nall then m.nall else m.nrec
  | .psmat => m.nall * m.nall
  | .pcmat => m.nall * m.nall
  | .usmat => m.nall * m.nrec
  | .usmatT => m.nall * m.nrec
  | .asmat => m.nrec * m.nrec
  | .smatLC => m.ncon * m.nline
  | .smatLL => m.nline * m.nline
  | _ => 0

/-- Likelihood of the continuum (prob_con_variability_semiseparable, src/mc_con.c 571-661) for one data set. -/
def conLikeAcc (nq : ℕ) (m : Maxima) (d : DSize) : List Acc :=
  let ncon := d.con
  let Larr := 0
  let ybuf := Larr + m.ncon * nq
  let y := ybuf + m.ncon * nq
  let yq := y + m.ncon
  let Cq := yq + nq
  let W := Cq + nq * nq
  let D := W + m.ncon
  let phi := D + m.ncon
  let w := Buf.workspace
  [ .mat w 0 Larr ncon nq,
    -- compute_semiseparable_drw
    .vec w 5 W ncon, .vec w 6 D ncon, .vec w 7 phi ncon,
    -- ybuf = C^-1 x L, Cq = L^T x ybuf, yq = ybuf^T x f
    .mat w 1 ybuf ncon nq, .mat w 4 Cq nq nq, .vec w 3 yq nq,
    .vec .ipiv 0 0 nq,
    -- ybuf = Cq x yq, y = f - L x ybuf, ybuf = C^-1 x y
    .vec w 1 ybuf nq, .vec w 2 y ncon, .vec w 1 ybuf ncon ]

/-- Reconstruction of the continuum at `n` times (recostruct_con_from_varmodel_semiseparable,
src/mc_con.c 279-367; set_covar_Umat 719-740). -/
def conRecAcc (nq : ℕ) (d : DSize) (n : ℕ) : List Acc :=
  let nd := d.con
  let Larr := 0
  let ybuf := Larr + nd * nq
  let y := ybuf + nd * nq
  let Cq := y + nd
  let yq := Cq + nq * nq
  let yuq := yq + nq
  let LarrRec := yuq + n
  let W := LarrRec + n * nq
  let D := W + nd
  let phi := D + nd
  let w := Buf.workspace
  [ .mat .usmat 0 0 n nd,
    .mat w 0 Larr nd nq, .vec w 7 W nd, .vec w 8 D nd, .vec w 9 phi nd,
    .mat w 1 ybuf nd nq, .mat w 3 Cq nq nq, .vec w 5 yuq nq, .vec .ipiv 0 0 nq,
    .vec w 4 yq nq, .vec .yqall 0 0 nq, .vec w 2 y nd,
    .mat .pe1 0 0 nd n, .vec .fall 0 0 n, .mat w 6 LarrRec n nq,
    .mat .pe2 0 0 n n, .mat .pe1 0 0 n nq, .vec .feall 0 0 n ]

/-- Arrays of the caller and of the reconstruction itself for the continuum: src/mc_con.c 302-303,
100-104 (`tcon`, `fcon`, `fecon` hold `ncon_max*nscale`, `yq` holds `nq`). -/
def conRecSize (nq : ℕ) (m : Maxima) (d : DSize) (n : ℕ) : Buf → ℕ
  | .pe1 => n * d.con
  | .pe2 => n * n
  | .fall => m.ncon * 3
  | .feall => m.ncon * 3
  | .yqall => nq
  | b => sharedSize nq m b

/-- The pieces touched by the steps of the block inversion, `ni` rows done so far, the sizes still to come,
row length `nt` (loop of inverse_semiseparable_iter, src/mathfun.c 1013-1080, and of
inverse_symat_partition_iter 863-926; the helpers 775-800 and 931-957).  Each line is a list of its own: the
areas are laid out afresh in every pass. -/
def blockStepAcc (nt : ℕ) : ℕ → List ℕ → List (List Acc)
  | _, [] => []
  | ni, nq :: rest =>
    let Ai := 0
    let ANi := Ai + nt * nt
    let QNi := ANi + ni * ni
    let SNi := QNi + ni * nq
    let pwork := SNi + nq * nq
    let v := Buf.inv
    ( [ .mat v 0 Ai ni ni, .mat v 2 QNi ni nq, ⟨.pcmat, 0, ni, ni, nt, nq, 1⟩,
        .mat v 3 SNi nq nq, ⟨.pcmat, 0, ni * nt + ni, nq, nt, nq, 1⟩,
        .mat v 4 pwork ni nq, .vec .ipiv 0 0 nq, .mat v 1 ANi ni ni ]
      -- the new matrix goes to the start of the work array, in the last pass back into `A`
      ++ [ .mat (if rest = [] then .pcmat else v) 0 0 (ni + nq) (ni + nq) ] )
    :: blockStepAcc nt (ni + nq) rest

/-- Likelihood of continuum and lines (prob_line_variability4, src/mc_line.c 2192-2316, with
set_covar_Pmat_data_line_array 2527-2629; the same layout in src/mc_mmap.c 990-1006 and
src/mc_pmap.c 296-311) for one data set, without the steps of the block inversion. -/
def lineLikeAcc (nq : ℕ) (m : Maxima) (d : DSize) : List Acc :=
  let nall := d.all
  let nqall := nq * (1 + d.nl)
  let Larr := 0
  let ybuf := Larr + m.nall * ((1 + m.nlset) * nq)
  let y := ybuf + m.nall * ((1 + m.nlset) * nq)
  let yq := y + m.nall
  let Cq := yq + (1 + m.nlset) * nq
  let W := Cq + ((1 + m.nlset) * nq) * ((1 + m.nlset) * nq)
  let D := W + m.nall
  let phi := D + m.nall
  let fe := phi + m.nall
  let narr := fe + m.nall
  let w := Buf.workspace
  [ .mat w 0 Larr nall nqall, .ints w 9 narr (1 + d.nl),
    .mat .pcmat 0 0 nall nall, .mat .psmat 0 0 nall nall ]
  ++ d.lines.map (fun n => .mat .smatLC 0 0 d.con n)
  ++ d.lines.flatMap (fun n => d.lines.map (fun n2 => .mat .smatLL 0 0 n n2))
  ++ [ .vec w 8 fe d.con, .vec w 5 W d.con, .vec w 6 D d.con, .vec w 7 phi d.con,
       .mat .inv 0 0 d.con d.con,
       .mat w 1 ybuf nall nqall, .mat w 4 Cq nqall nqall, .vec w 3 yq nqall, .vec .ipiv 0 0 nqall,
       .vec w 1 ybuf nqall, .vec w 2 y nall, .vec w 1 ybuf nall ]

/-- Number of reconstruction times of each light curve of a data set
(output_reconstruction_parallel, src/mc_line.c 305-316): the same for the continuum and every line. -/
def recNodes (ndRec : ℕ) (d : DSize) : ℕ := min (d.con * 3) ndRec

/-- Reconstruction of continuum and lines (reconstruct_line_from_varmodel3, src/mc_line.c 1692-1850, same
layout in src/mc_mmap.c 682-696) at `n` times per light curve, without the steps of the block inversion. -/
def lineRecAcc (nq : ℕ) (d : DSize) (n : ℕ) : List Acc :=
  let nd := d.all
  let nqall := nq * (1 + d.nl)
  let ntall := n + d.nl * n
  let Larr := 0
  let ybuf := Larr + nd * nqall
  let y := ybuf + nd * nqall
  let Cq := y + nd
  let yq := Cq + nqall * nqall
  let yuq := yq + nqall
  let LarrRec := yuq + ntall
  let W := LarrRec + ntall * nqall
  let D := W + nd
  let phi := D + nd
  let fe := phi + nd
  let narr := fe + d.con
  let w := Buf.workspace
  [ .mat .pcmat 0 0 nd nd, .mat .psmat 0 0 nd nd, .mat .usmat 0 0 ntall nd, .mat .asmat 0 0 ntall ntall,
    .mat w 0 Larr nd nqall, .ints w 11 narr (1 + d.nl), .vec w 10 fe d.con,
    .vec w 7 W d.con, .vec w 8 D d.con, .vec w 9 phi d.con, .mat .inv 0 0 d.con d.con,
    .mat w 1 ybuf nd nqall, .mat w 3 Cq nqall nqall, .vec w 5 yuq nqall, .vec .ipiv 0 0 nqall,
    .vec w 4 yq nqall, .vec .yqall 0 0 nqall, .vec w 2 y nd,
    .mat .pe1 0 0 ntall nd, .vec .fall 0 0 ntall, .mat w 6 LarrRec ntall nqall,
    .mat .pe2 0 0 ntall ntall, .mat .pe1 0 0 ntall nqall, .vec .feall 0 0 ntall ]

/-- Arrays local to a reconstruction call or owned by its caller (src/mc_line.c 1739-1740, 318-345). -/
def lineRecSize (nq : ℕ) (m : Maxima) (d : DSize) (n : ℕ) : Buf → ℕ
  | .pe1 => (n + d.nl * n) * d.all
  | .pe2 => (n + d.nl * n) * (n + d.nl * n)
  | .fall => n + d.nl * n
  | .feall => n + d.nl * n
  | .yqall => nq * (1 + m.nlset)
  | b => sharedSize nq m b

/-- Decomposition of the lines into components (decompose_single_component, src/line_decomp.c 667-857, same
layout in src/line_decomp_mmap.c 405-414) at `n` times per light curve. -/
def decompAcc (nq : ℕ) (d : DSize) (n : ℕ) : List Acc :=
  let nd := d.all
  let nqall := nq * (1 + d.nl)
  let ntall := n + d.nl * n
  let Larr := 0
  let ybuf := Larr + nd * nqall
  let y := ybuf + nd * nqall
  let Cq := y + nd
  let yq := Cq + nqall * nqall
  let yave := yq + nqall
  let yuq := yave + nd
  let LarrRec := yuq + ntall
  let w := Buf.workspace
  [ .mat .pcmat 0 0 nd nd, .mat .psmat 0 0 nd nd, .mat .usmat 0 0 ntall nd, .mat .asmat 0 0 ntall ntall,
    .mat w 0 Larr nd nqall, .mat .pe1 0 0 nd nd, .mat .pe2 0 0 nd nqall, .vec .ipiv 0 0 nd,
    .mat w 3 Cq nqall nqall, .vec w 4 yq nqall, .mat .pe1 0 0 nqall nqall, .vec .ipiv 0 0 nqall,
    .vec .yqall 0 0 nqall, .vec w 5 yave nd, .vec w 2 y nd, .vec .pe2 0 0 nd, .vec .fall 0 0 ntall,
    .mat w 7 LarrRec ntall nqall, .vec w 6 yuq ntall,
    .mat .usmatT 0 0 nd ntall, .mat .pe2 0 0 nd ntall, .mat .pe1 0 0 ntall ntall, .vec .feall 0 0 ntall ]

/-- Arrays local to a decomposition call or owned by its caller (src/line_decomp.c 717-723, 147-157). -/
def decompSize (nq : ℕ) (m : Maxima) (d : DSize) (n : ℕ) : Buf → ℕ
  | .pe1 | .pe2 | .pe3 | .pe4 => max (n + d.nl * n) m.nall * max (n + d.nl * n) m.nall
  | .fall => n + d.nl * n
  | .feall => n + d.nl * n
  | .yqall => nq * (1 + m.nlset)
  | b => sharedSize nq m b

/-- Likelihood of the virtual-continuum mode (prob_line_variability4_vmap, src/mc_vmap.c 430-535, with
set_covar_Pmat_data_line_array_vmap 542-606) for one data set, without the steps of the block inversion. -/
def vmapLikeAcc (nq : ℕ) (m : Maxima) (d : DSize) : List Acc :=
  let nall := d.all
  let nqall := nq * d.nl
  let Larr := 0
  let ybuf := Larr + m.nall * ((1 + m.nlset) * nq)
  let y := ybuf + m.nall * ((1 + m.nlset) * nq)
  let yq := y + m.nall
  let Cq := yq + (1 + m.nlset) * nq
  let narr := Cq + (1 + m.nlset) * nq * (1 + m.nlset) * nq
  let n0 := d.lines.headD 0
  let w := Buf.workspace
  [ .mat w 0 Larr nall nqall, .ints w 5 narr d.nl,
    .mat .pcmat 0 0 nall nall, .mat .psmat 0 0 nall nall ]
  ++ d.lines.flatMap (fun n => d.lines.map (fun n2 => .mat .smatLL 0 0 n n2))
  ++ [ .mat .inv 0 0 n0 n0, .vec .ipiv 0 0 n0,
       .mat w 1 ybuf nall nqall, .mat w 4 Cq nqall nqall, .vec w 3 yq nqall, .vec .ipiv 0 0 nqall,
       .vec w 1 ybuf nqall, .vec w 2 y nall, .vec w 1 ybuf nall ]

/-- Number of reconstruction times of each light curve in the virtual-continuum mode
(src/mc_vmap.c 741-752). -/
def vmapNodes (ndRec : ℕ) (d : DSize) : ℕ := d.lines.foldl (fun a n => max a (min (n * 3) ndRec)) 0

/-- Reconstruction in the virtual-continuum mode (reconstruct_line_from_varmodel_vmap,
src/mc_vmap.c 1382-1540) at `n` times per light curve. -/
def vmapRecAcc (nq : ℕ) (d : DSize) (n : ℕ) : List Acc :=
  let nd := d.all
  let nqall := nq * d.nl
  let ntall := n + d.nl * n
  let Larr := 0
  let ybuf := Larr + nd * nqall
  let y := ybuf + nd * nqall
  let Cq := y + nd
  let yq := Cq + nqall * nqall
  let yave := yq + nqall
  let yuq := yave + nd
  let LarrRec := yuq + ntall
  let w := Buf.workspace
  [ .mat .pcmat 0 0 nd nd, .mat .psmat 0 0 nd nd, .mat .usmat 0 0 ntall nd, .mat .asmat 0 0 ntall ntall,
    .mat w 0 Larr nd nqall, .mat .pe1 0 0 nd nd, .mat .pe2 0 0 nd nqall, .vec .ipiv 0 0 nd,
    .mat w 3 Cq nqall nqall, .vec w 4 yq nqall, .mat .pe1 0 0 nqall nqall, .vec .ipiv 0 0 nqall,
    .vec .yqall 0 nq nqall, .vec w 5 yave nd, .vec w 2 y nd, .vec .pe2 0 0 nd, .vec .fall 0 0 ntall,
    .mat w 7 LarrRec ntall nqall, .vec w 6 yuq ntall,
    .mat .usmatT 0 0 nd ntall, .mat .pe2 0 0 nd ntall, .mat .pe1 0 0 ntall ntall,
    .mat .pe3 0 0 ntall nqall, .mat .pe2 0 0 ntall nqall, .mat .pe4 0 0 ntall ntall, .vec .feall 0 0 ntall ]

end Mica
