import Verif.Io
import Verif.Util
import Verif.StableSort

/-!
# Edge list tools (`cmd/lp-edgelist-tools/main.go`)

Loaders `i` of `q` read the whole file and pass the lines whose number (from 1) is `i` modulo `q`
through a Go channel to collector `i`. Then the lines are sorted or shuffled and written out.

Simplifications: Go channels are lists with a capacity (first in first out, a receive sees "closed"
only when empty). `bufio.Scanner` is its contract: the lines without line ends, up to the first line
of 64 KiB or more, where it stops (the tool does not ask for the error). A thread count of 0 or less
panics when the lists are made and is left out. `sort.Stable` is `stableSort`.
-/

namespace Verif.EdgeTools

open Verif.Io (fastFields)

abbrev Line := List UInt8

/-- `bufio.Scanner` on a file with these lines (`bufio.MaxScanTokenSize`). -/
def scanned (file : List Line) : List Line := file.takeWhile (fun l => decide (l.length < 65536))

/-- `strings.HasPrefix(lineText, "#")` (39). -/
def comment (l : Line) : Bool := l.head? == some 35

/-- `pos i`: lines read by enqueuer `i`; `chan`, `lists`: channel and list of each dequeuer;
`closing`: how many channels are closed (69-71); `done`: dequeuer returned (23). -/
structure St where
  pos : Nat → Nat
  chan : Nat → List Line
  lists : Nat → List Line
  closing : Nat
  done : Nat → Bool

def start : St := { pos := fun _ => 0, chan := fun _ => [], lists := fun _ => [], closing := 0, done := fun _ => false }

inductive Act where
  | read (i : Nat)
  | close
  | recv (i : Nat)
  | finish (i : Nat)
  deriving DecidableEq, Repr

/-- One step with `q` enqueuers and dequeuers: `read` is one turn of `LineEnqueuer`'s loop (31-42,
`deqCount = enqCount = q`), `close` is 69-71 after `enqWg.Wait()`, `recv`/`finish` are `LineDequeuer`. -/
def step (q : Nat) (lines : List Line) (s : St) : Act → Option St
  | .read i =>
    if i < q then
      match lines[s.pos i]? with
      | none => none
      | some l =>
        let n := s.pos i + 1
        if n % q ≠ i then some { s with pos := upd s.pos i n }
        else if comment l then some { s with pos := upd s.pos i n }
        else if (s.chan (n % q)).length < 4096 then
          some { s with pos := upd s.pos i n, chan := upd s.chan (n % q) (s.chan (n % q) ++ [l]) }
        else none
    else none
  | .close =>
    if (List.range q).all (fun i => decide (s.pos i = lines.length)) && decide (s.closing < q) then some { s with closing := s.closing + 1 } else none
  | .recv i =>
    if i < q ∧ s.done i = false then
      match s.chan i with
      | [] => none
      | l :: ls => some { s with chan := upd s.chan i ls, lists := upd s.lists i (s.lists i ++ [l]) }
    else none
  | .finish i =>
    if i < q ∧ i < s.closing ∧ s.chan i = [] then some { s with done := upd s.done i true } else none

def run (q : Nat) (lines : List Line) : St → List Act → Option St
  | s, [] => some s
  | s, a :: as => (step q lines s a).bind fun s' => run q lines s' as

/-- `deqWg.Wait()` returned (78). -/
def finished (q : Nat) (s : St) : Bool := (List.range q).all s.done

/-- `finalList` (83-86). -/
def result (q : Nat) (s : St) : List Line := (List.range q).flatMap s.lists

/-- Go's `<` on strings: bytewise. -/
def ltBytes : List UInt8 → List UInt8 → Bool
  | _, [] => false
  | [], _ :: _ => true
  | a :: as, b :: bs => if a < b then true else if a = b then ltBytes as bs else false

/-- `Less` (102-109); `none` is a panic (more than five fields, or `tsPos` not below five). The
field buffer is shared by the two lines. -/
def less (tsPos : Nat) (a b : Line) : Option Bool :=
  match fastFields (List.replicate 5 []) a with
  | none => none
  | some f1 =>
    match f1[tsPos]? with
    | none => none
    | some ts1 =>
      match fastFields f1 b with
      | none => none
      | some f2 =>
        match f2[tsPos]? with
        | none => none
        | some ts2 => some (ltBytes ts1 ts2)

/-- `sort.Stable(idxStr)` (132). Every element is compared at least once if there are two. -/
def sortLines (tsPos : Nat) (ls : List Line) : Option (List Line) :=
  if ls.length < 2 then some ls
  else if ls.all (fun l => (less tsPos l l).isSome) then some (stableSort (fun a b => (less tsPos b a).getD false == false) ls)
  else none

/-- How the program ends: panic, `log.Fatal`, or normally with these files. -/
inductive Outcome where
  | panic
  | fatal
  | ok (files : String → Option (List Line))

/-- Lines 146-154: `utils.OpenFile` is `os.Open`, which opens an existing file for reading only, so
that `WriteString` returns an error. -/
def writeOut (files : String → Option (List Line)) (name : String) (ls : List Line) : Outcome :=
  match files name with
  | none => .panic
  | some _ =>
    match ls with
    | [] => .ok files
    | _ :: _ => .fatal

/-- `main` with `-sort` (121-154), given the list that `LoadLineList` returned. -/
def mainSort (files : String → Option (List Line)) (name : String) (tsPos : Nat) (ls : List Line) : Outcome :=
  match sortLines tsPos ls with
  | none => .panic
  | some ls => writeOut files (name ++ ".sorted") ls

end Verif.EdgeTools
