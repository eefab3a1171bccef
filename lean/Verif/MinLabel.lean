import Verif.Async
import Mathlib.Order.BoundedOrder.Basic
import Mathlib.Order.MinMax
import Mathlib.Order.Fin.Basic
import Mathlib.Order.WithBot
import Mathlib.Algebra.Order.Monoid.Unbundled.WithTop
import Mathlib.Algebra.Order.Ring.Rat

/-!
# Shortest paths and connected components

`cmd/lp-sssp/sssp.go`, `cmd/lp-cc/cc.go`, as algorithms for `Verif/Async.lean`.

Simplifications: distances are exact numbers with `⊤` for `EMPTY_VAL = MaxFloat64` (rounding: see the
remark at `minAlg`); a vertex is identified with its internal id. `OnEdgeDel` panics; here it does
nothing, and the theorems speak about runs without deletes.
-/

namespace Verif.MinLabel

open Verif.Async

/-- Post to the given targets in order; `sent` says whether some notification was sent. -/
def postAll {M N : Type} : List (Nat × M) → Bool → (Bool → Prog M N) → Prog M N
  | [], sent, k => k sent
  | (w, m) :: ws, sent, k => .post w m fun b => postAll ws (sent || b) k

/-! ## SSSP -/

/-- Distances: `⊤` is `EMPTY_VAL`. -/
abbrev Dist := WithTop ℚ

/-- `OnUpdateVertex` (`sssp.go:44-61`); the result's flag is `sent != 0`. -/
def ssspUpdate (p : Dist) (es : List (Edge ℚ)) (m : Dist) (k : Bool → Prog Dist Unit) : Dist × Prog Dist Unit :=
  if p ≤ m then (p, k false)
  else (m, postAll (es.map fun e => (e.dst, m + (e.data : Dist))) false k)

/-- `OnEdgeAdd` (`sssp.go:66-83`). -/
def ssspAdd (p : Dist) (es : List (Edge ℚ)) (eidxStart : Nat) (m : Dist) : Dist × Prog Dist Unit :=
  let p' := if p ≤ m then p else m
  ssspUpdate p es m fun sent =>
    if sent then .done
    else if p' < ⊤ then postAll ((es.drop eidxStart).map fun e => (e.dst, p' + (e.data : Dist))) false fun _ => .done
    else .done

/-- `SSSP` (`sssp.go:27-88`). -/
def sssp : Alg Dist Dist Unit ℚ :=
  { newP := ⊤, newM := ⊤, noNote := (),
    -- 34-36: `incoming < AtomicMin(existing, incoming)`, which returns the old value
    merge := fun incoming _ existing => (min existing incoming, decide (incoming < existing)),
    -- 38-40
    retrieve := fun existing _ => (existing, existing),
    onUpdate := fun _ p es _ _ m => ssspUpdate p es m fun _ => .done,
    onEdgeAdd := fun _ p es i m => ssspAdd p es i m,
    onEdgeDel := fun _ p _ _ _ => (p, .done) }

/-! ## Connected components -/

/-- Labels: `uint32`; `EMPTY_VAL = MaxUint32` is the largest. -/
abbrev Label := Fin 4294967296

/-- `OnUpdateVertex` (`cc.go:53-70`). -/
def ccUpdate (p : Label) (es : List (Edge Unit)) (m : Label) (k : Bool → Prog Label Unit) : Label × Prog Label Unit :=
  if p ≤ m then (p, k false)
  else (m, postAll (es.map fun e => (e.dst, m)) false k)

/-- `OnEdgeAdd` (`cc.go:73-90`). -/
def ccAdd (p : Label) (es : List (Edge Unit)) (eidxStart : Nat) (m : Label) : Label × Prog Label Unit :=
  let p' := if p ≤ m then p else m
  ccUpdate p es m fun sent =>
    if sent then .done
    else postAll ((es.drop eidxStart).map fun e => (e.dst, p')) false fun _ => .done

/-- `CC` (`cc.go:26-94`). The initial mail is the raw id (`InitAllMail`, 38-40). -/
def cc : Alg Label Label Unit Unit :=
  { newP := 4294967295, newM := 4294967295, noNote := (),
    -- 42-44
    merge := fun incoming _ existing => (min existing incoming, decide (incoming < existing)),
    -- 46-48
    retrieve := fun existing _ => (existing, existing),
    onUpdate := fun _ p es _ _ m => ccUpdate p es m fun _ => .done,
    onEdgeAdd := fun _ p es i m => ccAdd p es i m,
    onEdgeDel := fun _ p _ _ _ => (p, .done) }

/-! ## The common form -/

variable {L E : Type} [LinearOrder L] [OrderTop L]

/-- The mailbox keeps the least label offered; a visit that improves the label offers `f e label` along
every edge. Adding edges includes a visit, and offers along the new edges if the visit sent nothing.
`f` may be any monotone function, so a rounded sum is covered as well. `guard`: offer along new edges
only if the label is not `⊤`. -/
def minAlg (f : E → L → L) (guard : Bool) : Alg L L Unit E :=
  { newP := ⊤, newM := ⊤, noNote := (),
    merge := fun incoming _ existing => (min existing incoming, decide (incoming < existing)),
    retrieve := fun existing _ => (existing, existing),
    onUpdate := fun _ p es _ _ m =>
      if p ≤ m then (p, .done) else (m, postAll (es.map fun e => (e.dst, f e.data m)) false fun _ => .done),
    onEdgeAdd := fun _ p es i m =>
      let p' := if p ≤ m then p else m
      let k : Bool → Prog L Unit := fun sent =>
        if sent then .done
        else if guard = true → p' < ⊤ then postAll ((es.drop i).map fun e => (e.dst, f e.data p')) false fun _ => .done
        else .done
      if p ≤ m then (p, k false) else (m, postAll (es.map fun e => (e.dst, f e.data m)) false k),
    onEdgeDel := fun _ p _ _ _ => (p, .done) }

theorem sssp_eq : sssp = minAlg (fun (w : ℚ) (x : Dist) => x + (w : Dist)) true := by
  simp only [sssp, minAlg, ssspUpdate, ssspAdd, forall_const]

theorem cc_eq : cc = minAlg (fun (_ : Unit) (x : Label) => x) false := by
  simp only [cc, minAlg, ccUpdate, ccAdd]
  rfl

end Verif.MinLabel
