import Verif.Model.Res
import Mathlib.Data.Nat.Notation

/-!
# The command line: `my_getopt` (src/mygetopt.c) and its two callers

`main` (src/main.c) and `dnest` (cdnest/dnest.c) read their arguments with the project's own `getopt`, which
rearranges the array `argv` while it is read.  A text is a list of characters without the final zero; `my_optnext`,
a pointer into an argument, is the rest of the argument from there on.

Simplifications: the environment variable `POSIXLY_CORRECT` is not set (src/mygetopt.c:137); the option strings of
the two callers do not begin with `+`, `-` or `:`; only short options (`longopts == NULL`, src/mygetopt.c:170-173).
Messages are not modelled.
-/

namespace Mica

/-- A C string. -/
abbrev CStr := List Char

/-- `is_option`, src/mygetopt.c:164-167. -/
def isOpt : CStr → Bool
  | '-' :: _ :: _ => true
  | _ => false

/-- The static variables: `argv` (of length `argc`), `my_optind`, `my_optnext`, `start`, `end`
(src/mygetopt.c:244-254). -/
structure GState where
  argv : List CStr
  optind : ℕ
  optnext : Option CStr
  start : ℕ
  stop : ℕ

/-- `my_optind = 0` at the first call: the reset, src/mygetopt.c:266-273. -/
def GState.init (argv : List CStr) : GState := ⟨argv, 1, none, 0, 0⟩

/-- `for(i = end; i < last_pos; i++) argv[i] = argv[i+1]`, src/mygetopt.c:302-305: `n` steps from `i` on. -/
def shiftGo {α : Type u} : ℕ → ℕ → List α → Res (List α)
  | 0, _, a => .ok a
  | n + 1, i, a => Res.get a (i + 1) >>= fun x => Res.put a i x >>= shiftGo n (i + 1)

/-- One round of the loop that puts a non-option behind the options, src/mygetopt.c:299-307. -/
def moveOne {α : Type u} (a : List α) (e last : ℕ) : Res (List α) :=
  Res.get a e >>= fun x => shiftGo (last - e) e a >>= fun b => Res.put b (max e last) x

/-- `while(start < end--)`, src/mygetopt.c:296-311: `k` rounds, `end` and `last_pos` before the first. -/
def permGo {α : Type u} : ℕ → ℕ → ℕ → List α → Res (List α)
  | 0, _, _, a => .ok a
  | k + 1, e, last, a => moveOne a (e - 1) last >>= permGo k (e - 1) (last - 1)

/-- src/mygetopt.c:282-313: if non-options have been skipped before the option just finished, they change places. -/
def permute (s : GState) : Res GState :=
  if s.optnext = none ∧ s.start ≠ 0 then
    permGo (s.stop - s.start) s.stop (s.optind - 1) s.argv >>= fun a =>
    .ok ⟨a, max 1 (s.optind - (s.stop - s.start)), none, 0, s.start - 1⟩
  else .ok s

/-- Index of the first option at or behind `i`, the loop src/mygetopt.c:345-352. -/
def findOpt : List CStr → ℕ → Option ℕ
  | [], _ => none
  | a :: l, i => if isOpt a then some i else findOpt l (i + 1)

/-- What a call returns: `-1`, an option with `my_optarg`, or `'?'` with `my_optopt`. -/
inductive GRet
  | done
  | opt (c : Char) (arg : Option CStr)
  | bad (c : Char)
  deriving DecidableEq

/-- `strchr(optstring, opt)` without the character itself: what follows the first occurrence. -/
def afterOpt : List Char → Char → Option (List Char)
  | [], _ => none
  | d :: l, c => if d = c then some l else afterOpt l c

/-- `my_getopt_shortopts`, src/mygetopt.c:399-485, for `my_optnext` pointing at `cs`. -/
def shortOpts (os : List Char) (s : GState) : CStr → Res (GRet × GState)
  | [] => .ub
  | c :: cs =>
    match afterOpt os c with
    | none =>
      if cs = [] then .ok (.bad c, { s with optind := s.optind + 1, optnext := none })
      else .ok (.bad c, { s with optnext := some cs })
    | some (':' :: os') =>
      if cs = [] then
        if os'.head? = some ':' then .ok (.opt c none, { s with optind := s.optind + 1, optnext := none })
        else if s.optind + 1 = s.argv.length then .ok (.bad c, { s with optind := s.optind + 1, optnext := none })
        else Res.get s.argv (s.optind + 1) >>= fun x =>
          .ok (.opt c (some x), { s with optind := s.optind + 2, optnext := none })
      else .ok (.opt c (some cs), { s with optind := s.optind + 1, optnext := none })
    | some _ =>
      if cs = [] then .ok (.opt c none, { s with optind := s.optind + 1, optnext := none })
      else .ok (.opt c none, { s with optnext := some cs })

/-- From the argument `arg` at `my_optind` on, src/mygetopt.c:366-395: `--` ends the options, otherwise the first
letter of `arg` is looked at. -/
def startArg (os : List Char) (s : GState) (arg : CStr) : Res (GRet × GState) :=
  if arg = ['-', '-'] then .ok (.done, { s with optind := s.optind + 1 })
  else shortOpts os { s with optnext := some (arg.drop 1) } (arg.drop 1)

/-- `my_getopt_internal` after the reset, src/mygetopt.c:282-396. -/
def getopt (os : List Char) (s0 : GState) : Res (GRet × GState) :=
  permute s0 >>= fun s =>
  if s.argv.length ≤ s.optind then .ok (.done, s) else
  match s.optnext with
  | some cs => shortOpts os s cs
  | none =>
    Res.get s.argv s.optind >>= fun arg =>
    if isOpt arg then startArg os s arg
    else
      match findOpt (s.argv.drop (s.optind + 1)) (s.optind + 1) with
      | none => .ok (.done, { s with start := s.optind })
      | some i => Res.get s.argv i >>= fun arg =>
          startArg os { s with optind := i, start := s.optind, stop := i } arg

/-- `while((opt = my_getopt(argc, argv, os)) != -1) switch(opt) …` where `case '?'` calls `exit`
(src/main.c:50-97, cdnest/dnest.c:84-148): `step` is the body of the `switch`, the result is what it has set, and
`argv`, `my_optind` at the end.  `fuel` bounds the number of calls. -/
def getoptLoop {σ : Type} (os : List Char) (step : σ → Char × Option CStr → Res σ) :
    ℕ → GState → σ → Res (σ × List CStr × ℕ)
  | 0, _, _ => .hang
  | n + 1, s, c =>
    getopt os s >>= fun r =>
    match r.1 with
    | .done => .ok (c, r.2.argv, r.2.optind)
    | .bad _ => .exit
    | .opt o x => step c (o, x) >>= getoptLoop os step n r.2

/-- `strcpy` into an array of `n` characters. -/
def copyStr (n : ℕ) (s : CStr) : Res CStr := if s.length < n then .ok s else .ub

/-- The settings read by `main`. -/
structure MainCfg where
  postprc : Bool := false
  version : Bool := false
  restart : Bool := false
  decomp : Bool := false
  examine : Bool := false
  prior : Option CStr := none
  paraName : Bool := false
  postsample : Bool := false
  param : CStr := []
  optsLine : CStr := []
  optsCon : CStr := []
  deriving DecidableEq

/-- The option string of `main`, src/main.c:50. -/
def mainOpts : List Char := "pvrdel:ns".toList

/-- One pass of the `switch`, src/main.c:52-96.  `prior_file` has 256 characters (src/allvars.h:28, 96). -/
def mainSwitch (c : MainCfg) : Char × Option CStr → Res MainCfg
  | ('p', _) => .ok { c with postprc := true }
  | ('v', _) => .ok { c with version := true }
  | ('r', _) => .ok { c with restart := true }
  | ('d', _) => .ok { c with postprc := true, decomp := true }
  | ('e', _) => .ok { c with examine := true }
  | ('l', some f) => copyStr 256 f >>= fun g => .ok { c with prior := some g }
  | ('l', none) => .ub
  | ('n', _) => .ok { c with paraName := true }
  | ('s', _) => .ok { c with postsample := true }
  | _ => .ok c

/-- The names behind the options, src/main.c:99-119; the arrays have 256 characters. -/
def mainFiles (c : MainCfg) (argv : List CStr) (optind : ℕ) : Res MainCfg :=
  if optind < argv.length then
    Res.get argv optind >>= copyStr 256 >>= fun p =>
    (if optind + 1 < argv.length then Res.get argv (optind + 1) >>= copyStr 256 else .ok []) >>= fun l =>
    (if optind + 2 < argv.length then Res.get argv (optind + 2) >>= copyStr 256 else .ok []) >>= fun d =>
    .ok { c with param := p, optsLine := l, optsCon := d }
  else .exit

/-- What `main` reads from the command line, src/main.c:38-120. -/
def mainArgs (argv : List CStr) : Res MainCfg :=
  getoptLoop mainOpts mainSwitch ((argv.map List.length).sum + 1) (GState.init argv) {} >>= fun r =>
  mainFiles r.1 r.2.1 r.2.2

end Mica
