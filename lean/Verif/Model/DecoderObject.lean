import Verif.Model.Circuit
import Verif.Model.Decoder
/-!
Decoder objects and their parameter dictionaries: `LatticeDecoder.__init__` keeps a reference to the caller's dictionary
(/repo/qtcodes/fitters/base.py:27), the graphs are built from it at once, but the encoder, which parses readout strings, is
made from a copy of it when it is first needed (/repo/qtcodes/fitters/lattice_decoder.py:46-50).
-/
namespace Qtc

/-- `RotatedDecoder` and `RepetitionDecoder`. -/
inductive DClass where
  | rotated
  | repetition
  deriving DecidableEq, Repr

/-- `encoder_type`, /repo/qtcodes/fitters/rotated_surface.py:26 and repetition.py:16. -/
def DClass.encoder : DClass → QClass
  | .rotated => .xxzz
  | .repetition => .rep

/-- A decoder object: class, `self.params` (by reference), what was built from it, and the size of `self._encoder`. -/
structure DecoderObj where
  cls : DClass
  pref : Nat
  D : Decoder
  enc : Option (Int × Int)

/-- `_params_validation` with the resulting `syndrome_graph_keys`, /repo/qtcodes/fitters/rotated_surface.py:27-48 and
repetition.py:17-25. -/
def DClass.validate (cls : DClass) (p : Params) : Py (Params × List Key) :=
  match cls with
  | .rotated => do
    let p ← rotatedDecoderValidate p
    return (p, [.X, .Z])
  | .repetition => repDecoderValidate p

/-- What `_params_validation` has written to the dictionary, whether it raises or not. An empty dictionary is replaced by a new one for
repetition codes (/repo/qtcodes/circuits/repetition.py:32). -/
def DClass.touched (cls : DClass) (p : Params) : Params :=
  match cls with
  | .rotated => rotatedDecoderTouched p
  | .repetition => if p.isEmpty then p else rotatedDecoderTouched (repTouched p)

/-- `RotatedDecoder(params)` and `RepetitionDecoder(params)` for the dictionary with reference `r`, which validation changes,
/repo/qtcodes/fitters/lattice_decoder.py:35-44. -/
def newDecoder (cls : DClass) (limit : Nat) (r : Nat) : WM DecoderObj := do
  let p ← getParams r
  setParams r (cls.touched p)
  let v ← CM.lift (cls.validate p)
  setParams r v.1
  let D ← CM.lift (decoderOf v.1 v.2 limit)
  return ⟨cls, r, D, none⟩

/-- The size of `self.encoder_type(self.params.copy())`, made on a circuit of its own. -/
def DClass.makeEncoder (cls : DClass) (p : Params) : Py (Int × Int) :=
  match newQubit cls.encoder (some 0) "tq".toList ⟨fun _ => p, 1, {}⟩ with
  | (.error e, _) => .error e
  | (.ok q, w) => do
    let dh ← (w.heap q.lat.pref).dim 0
    let dw ← (w.heap q.lat.pref).dim 1
    return (dh, dw)

/-- The property `encoder`, /repo/qtcodes/fitters/lattice_decoder.py:46-50. -/
def DecoderObj.encoder (o : DecoderObj) (w : World) : Py (Int × Int) :=
  match o.enc with
  | some e => .ok e
  | none => o.cls.makeEncoder (w.heap o.pref)

/-- `correct_readout` for a readout string, /repo/qtcodes/fitters/lattice_decoder.py:382-395, with `parse_readout` of the encoder; the object
afterwards. -/
noncomputable def DecoderObj.correct (o : DecoderObj) (m : Matcher) (s : Str) (rt : RType) (ep : Option ℝ) (w : World) :
    Py (Option Int) × DecoderObj :=
  match o.encoder w with
  | .error e => (.error e, o)
  | .ok e => (do
      let r ← parseReadout e.1 e.2 s rt
      let q ← correctHits o.D m r.2.toDict rt (some r.1) ep
      return q.1, { o with enc := some e })

/-- What a program may do with dictionaries: make qubits and decoders from them, run operations of qubits, and write to them. -/
inductive DictAction where
  | qubit (cls : QClass) (params : Option Nat) (name : Str)
  | op (q : TQubit) (o : QOp)
  | decoder (cls : DClass) (limit : Nat) (r : Nat)
  | write (r : Nat) (p : Params)

/-- The state after an action, which may raise. -/
def DictAction.run (w : World) : DictAction → World
  | .qubit cls params name => (newQubit cls params name w).2
  | .op q o => (q.op o w).2
  | .decoder cls limit r => (newDecoder cls limit r w).2
  | .write r p => (setParams r p w).2

end Qtc
