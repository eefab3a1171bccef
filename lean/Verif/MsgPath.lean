import Verif.MinLabel

/-!
# Message-passing shortest paths

`cmd/lp-sssp/sssp-msg.go` as an algorithm for `Verif/Async.lean`: distances travel in the notes of active
notifications, mailboxes are unused. Simplifications as in `Verif/MinLabel.lean`.
-/

namespace Verif.MsgPath

open Verif.Async Verif.MinLabel

/-- Send to the given targets in order. -/
def sendAll {M N : Type} : List (Nat × N) → Prog M N
  | [] => .done
  | (w, n) :: ws => .send w n (sendAll ws)

/-- `VPMsg` (`sssp-msg.go:15-18`). -/
structure VP (L : Type) where
  value : L
  willUpdate : Bool
  deriving DecidableEq, Repr

/-- `OnUpdateVertex` (45-68). -/
def updateM (p : VP Dist) (es : List (Edge ℚ)) (note : Dist) (activity : Int) : VP Dist × Prog Unit Dist :=
  let p := if p.value > note then { value := note, willUpdate := true } else p
  if activity > 0 then (p, .done)
  else if p.willUpdate = false then (p, .done)
  else ({ p with willUpdate := false }, sendAll (es.map fun e => (e.dst, p.value + (e.data : Dist))))

/-- `OnEdgeAdd` (70-85). -/
def addM (p : VP Dist) (es : List (Edge ℚ)) (eidxStart : Nat) : VP Dist × Prog Unit Dist :=
  if p.value = ⊤ then (p, .done)
  else
    let eidx := if p.willUpdate = true then 0 else eidxStart
    ({ p with willUpdate := false }, sendAll ((es.drop eidx).map fun e => (e.dst, p.value + (e.data : Dist))))

/-- `SSSPM` (13-91). -/
def ssspm : Alg (VP Dist) Unit Dist ℚ :=
  { newP := { value := ⊤, willUpdate := false }, newM := (), noNote := ⊤,
    merge := fun _ _ _ => ((), true), retrieve := fun _ _ => ((), ()),
    onUpdate := fun _ p es n i _ => updateM p es n i,
    onEdgeAdd := fun _ p es st _ => addM p es st,
    onEdgeDel := fun _ p _ _ _ => (p, .done) }

/-! ## General form -/

variable {L E : Type} [LinearOrder L] [OrderTop L]

def hUpd (f : E → L → L) (note : L) (activity : Int) (p : VP L) (es : List (Edge E)) (_ : Unit) : VP L × Prog Unit L :=
  let p := if p.value > note then { value := note, willUpdate := true } else p
  if activity > 0 then (p, .done)
  else if p.willUpdate = false then (p, .done)
  else ({ p with willUpdate := false }, sendAll (es.map fun e => (e.dst, f e.data p.value)))

def hAdd (f : E → L → L) (eidxStart : Nat) (p : VP L) (es : List (Edge E)) (_ : Unit) : VP L × Prog Unit L :=
  if p.value = ⊤ then (p, .done)
  else
    let eidx := if p.willUpdate = true then 0 else eidxStart
    ({ p with willUpdate := false }, sendAll ((es.drop eidx).map fun e => (e.dst, f e.data p.value)))

/-- As `minAlg`: any monotone `f`. -/
def msgAlg (f : E → L → L) : Alg (VP L) Unit L E :=
  { newP := { value := ⊤, willUpdate := false }, newM := (), noNote := ⊤,
    merge := fun _ _ _ => ((), true), retrieve := fun _ _ => ((), ()),
    onUpdate := fun _ p es n i m => hUpd f n i p es m,
    onEdgeAdd := fun _ p es st m => hAdd f st p es m,
    onEdgeDel := fun _ p _ _ _ => (p, .done) }

theorem ssspm_eq : ssspm = msgAlg (fun (w : ℚ) (x : Dist) => x + (w : Dist)) := rfl

end Verif.MsgPath
