import Verif.Pipeline
import Verif.Props.Io

/-!
# The result file

Source: `/repo/graph/graph.go` (`WriteVertexProps` 363-383, `PathlessName` 386-395), `/repo/graph/graph-vertex.go`
(`NodeForEachVertex` 174-186), `/repo/graph/stream-parse.go` (`RawType.String` 17-19), `/repo/utils/io.go` (`CreateFile` 33-39).

Texts are lists of bytes. `decimal` is `strconv.Itoa`. How a property is printed (`utils.V`, `%v`) is a parameter `sh`. The
buffered writer and its flush are one write. The directory `results` is there.
-/

namespace Verif.ResultFile

open Verif.Props.Io (decimal)

variable {E P : Type}

/-- `strings.Split` by one byte. -/
def split (c : UInt8) : List UInt8 → List (List UInt8)
  | [] => [[]]
  | b :: bs => if b = c then [] :: split c bs else
    match split c bs with
    | [] => [[b]]
    | x :: xs => (b :: x) :: xs

/-- `PathlessName` (386-395): `/` is 47, `.` is 46. `none` would be an index panic. -/
def pathlessName (name : List UInt8) : Option (List UInt8) :=
  let mainT := split 47 name
  mainT[mainT.length - 1]?.bind fun main =>
    let td := split 46 main
    if 1 < td.length then td[td.length - 2]? else td[0]?

def ascii (s : String) : List UInt8 := s.toList.map fun c => UInt8.ofNat c.toNat

/-- `filename` (364-370). -/
def fileName (name : List UInt8) (dynamic : Bool) : Option (List UInt8) :=
  (pathlessName name).map fun n => ascii "results/" ++ n ++ ascii "-props-" ++ ascii (if dynamic then "dynamic" else "static") ++ ascii ".txt"

/-- One line (376): `,` is 44, the newline 10. -/
def line (raw : UInt32) (text : List UInt8) : List UInt8 := decimal raw.toNat ++ 44 :: text ++ [10]

/-- What is written (375-380): thread by thread, vertex by vertex. -/
def content (T : Nat) (th : Nat → Pipeline.Th) (sh : P → List UInt8) (prop : Nat × Nat → P) : List UInt8 :=
  (List.range T).flatMap fun t => (List.range (th t).verts.length).flatMap fun i =>
    match (th t).verts[i]? with
    | some v => line v.raw (sh (prop (t, i)))
    | none => []

/-- The files of a directory. Creating one empties it (`os.Create`). -/
abbrev Dir := List UInt8 → Option (List UInt8)

/-- `WriteVertexProps`. -/
def write (d : Dir) (name : List UInt8) (dynamic : Bool) (text : List UInt8) : Option Dir :=
  (fileName name dynamic).map fun f => upd d f (some text)

end Verif.ResultFile
