/-!
# Parsing and line scanning (`utils/io.go`, caller `graph/stream.go:262-276`)
-/

namespace Verif.Io

/-- `ToInt` / `ToIntStr` (`io.go:41-55`): wrapping `uint32` arithmetic; `buf[i]-'0'` wraps in
`byte`. -/
def toInt (buf : List UInt8) : UInt32 :=
  buf.foldl (fun n b => n * 10 + (b - 48).toUInt32) 0

/-- `SPACE_MASK` (58), as a 64-bit `int`. -/
def spaceMask : UInt64 :=
  ((1 : UInt64) <<< 9) ||| ((1 : UInt64) <<< 10) ||| ((1 : UInt64) <<< 11) ||| ((1 : UInt64) <<< 12) |||
    ((1 : UInt64) <<< 13) ||| ((1 : UInt64) <<< 32)

/-- `isByteSpace` (60-62). Go shifts of 64 or more give 0 (Lean's would wrap, hence the test). -/
def isByteSpace (b : UInt8) : Bool :=
  let sh : UInt64 := if b.toNat < 64 then (1 : UInt64) <<< b.toUInt64 else 0
  (spaceMask &&& sh) != 0

/-- Skipping of spaces (70-72, 86-88). -/
def skipSpaces : List UInt8 → List UInt8
  | [] => []
  | b :: bs => if isByteSpace b then skipSpaces bs else b :: bs

theorem skipSpaces_length (l : List UInt8) : (skipSpaces l).length ≤ l.length := by
  induction l with
  | nil => simp [skipSpaces]
  | cons b bs ih => simp only [skipSpaces]; split <;> simp <;> omega

/-- Main loop of `FastFields` (74-94). `cur` is `byteBuff[fieldStart:i]`, `rest` is
`byteBuff[i:]`, `idx` is `fieldIndex`; `fields` is the caller's (reused) array.
`none` is the panic of writing beyond `fieldBuff`. -/
def fieldsLoop (fields : List (List UInt8)) (idx : Nat) (cur : List UInt8) :
    List UInt8 → Option (List (List UInt8))
  | [] =>
    if cur = [] then some fields
    else if idx < fields.length then some (fields.set idx cur) else none
  | b :: bs =>
    if isByteSpace b then
      if idx < fields.length then
        fieldsLoop (fields.set idx cur) (idx + 1) [] (skipSpaces bs)
      else none
    else fieldsLoop fields idx (cur ++ [b]) bs
termination_by l => l.length
decreasing_by
  · have := skipSpaces_length bs; simp; omega
  · simp

/-- `FastFields` (66-95): the new contents of `fieldBuff`. -/
def fastFields (fields : List (List UInt8)) (line : List UInt8) : Option (List (List UInt8)) :=
  fieldsLoop fields 0 [] (skipSpaces line)

/-! ## Line scanner -/

/-- `FastFileLines` (118-122) together with the file: `buf` is the buffer (a total function;
only indexes below `L` are used), `rest` the unread bytes of the file, `chunks` the amounts the
next `Read` calls will want to return (an oracle). -/
structure Scanner where
  buf : Nat → UInt8
  start : Nat
  stop : Nat
  rest : List UInt8
  chunks : List Nat

/-- `s.Buf[start:stop]` as bytes. -/
def slice (buf : Nat → UInt8) (start stop : Nat) : List UInt8 :=
  (List.range (stop - start)).map (fun i => buf (start + i))

/-- The shifting loop (131-133): `k` further iterations from index `i`. -/
def shiftLoop (buf : Nat → UInt8) (start i : Nat) : Nat → (Nat → UInt8)
  | 0 => buf
  | k + 1 => shiftLoop (fun j => if j = i then buf (start + i) else buf j) start (i + 1) k

/-- Conditional shift (130-136). -/
def shift (L : Nat) (s : Scanner) : Scanner :=
  if 0 < s.start ∧ L / 2 < s.start then
    { s with buf := shiftLoop s.buf s.start 0 (s.stop - s.start),
             stop := s.stop - s.start, start := 0 }
  else s

/-- How many bytes a `Read` into `room` bytes returns: at least one if there is any
(`os.File.Read`; zero bytes without an error, which leads to the "no progress" panic, does not
happen for regular files), otherwise what the oracle says. -/
def readAmount (room : Nat) (s : Scanner) : Nat :=
  min (s.chunks.headD 0 + 1) (min room s.rest.length)

/-- The read (143-153). -/
def readInto (L : Nat) (s : Scanner) : Scanner :=
  let n := readAmount (L - s.stop) s
  { s with buf := fun j => if s.stop ≤ j ∧ j < s.stop + n then s.rest.getD (j - s.stop) 0 else s.buf j,
           stop := s.stop + n, rest := s.rest.drop n, chunks := s.chunks.tail }

/-- Result of asking for a line. -/
inductive Res where
  | line (l : List UInt8) (s : Scanner)
  | eof
  | panic

/-- `bytes.IndexByte(.., '\n')`: the bytes before the first newline, if there is one. -/
def findNl : List UInt8 → Option Nat
  | [] => none
  | b :: bs => if b = 10 then some 0 else (findNl bs).map (· + 1)

/-- `Scan` (126-174). The error of a read is end-of-file, reported when nothing is left. -/
def scan (L : Nat) (s : Scanner) : Res :=
  let s1 := shift L s
  if s1.stop = L then .panic
  else
    let err := s1.rest.isEmpty
    let s2 := readInto L s1
    match findNl (slice s2.buf s2.start s2.stop) with
    | some i =>
      .line (slice s2.buf s2.start (s2.start + i)) { s2 with start := s2.start + i + 1 }
    | none =>
      if err then
        if s2.stop > s2.start then
          .line (slice s2.buf s2.start s2.stop) { s2 with start := s2.stop }
        else .eof
      else if s2.rest.length < s.rest.length then scan L s2
      else .panic -- `stop > L` never happens; a read always makes progress otherwise
termination_by s.rest.length

/-- The caller (`stream.go:262-276`): first look for a newline in the buffered bytes, else
`Scan`. -/
def nextLine (L : Nat) (s : Scanner) : Res :=
  match findNl (slice s.buf s.start s.stop) with
  | some i => .line (slice s.buf s.start (s.start + i)) { s with start := s.start + i + 1 }
  | none => scan L s

/-- All lines up to end of file; `none` is a panic (or too little fuel). -/
def readAll (L : Nat) : Nat → Scanner → Option (List (List UInt8))
  | 0, _ => none
  | f + 1, s =>
    match nextLine L s with
    | .line l s' => (readAll L f s').map (l :: ·)
    | .eof => some []
    | .panic => none

/-- A fresh scanner on a file. -/
def openFile (content : List UInt8) (chunks : List Nat) : Scanner :=
  { buf := fun _ => 0, start := 0, stop := 0, rest := content, chunks }

end Verif.Io
